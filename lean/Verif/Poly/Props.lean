import Verif.Poly.Choose
/-
C82: PolyDBM opens what it is asked to open.
-/
namespace Verif.Poly
open Verif Verif.Codec
open Verif.Text (lowered lowerCase beginsWith)

theorem long_of {path : Bytes} {params : Params} (h : CompKnown path params) : lowered (value params (asc "key_comparator")) ∉ longCase := by
  simp only [longCase, List.mem_cons, List.not_mem_nil, or_false, not_or]
  exact ⟨h.lexicalCase, h.pairLexicalCase⟩

theorem named_iff (v : Bytes) (h : lowered v ∉ longCase) (c : Option Comp) :
    ((v = [] ∧ c = none) ∨ ∃ x, c = some x ∧ ∃ n ∈ compNames x, Same v n) ↔ c = compOf v ∧ (v = [] ∨ compOf v ≠ none) := by
  constructor
  · rintro (⟨rfl, rfl⟩ | ⟨x, rfl, hn⟩)
    · exact ⟨compOf_nil.symm, Or.inl rfl⟩
    · rw [same_names, ← compOf_iff v h] at hn
      exact ⟨hn.symm, Or.inr (by rw [hn]; simp)⟩
  · rintro ⟨rfl, hv | hv⟩
    · subst hv; exact Or.inl ⟨rfl, compOf_nil⟩
    · right
      cases hc : compOf v with
      | none => exact absurd hc hv
      | some x => exact ⟨x, rfl, by rw [same_names, ← compOf_iff v h, hc]⟩

theorem tune_iff (k : Kind) (f : FileKind) (m : Params) (c : Choice) (v : Bytes) (hv : search m (asc "key_comparator") [] = v)
    (hl : lowered v ∉ longCase) (ht : k = .tree → v = [] ∨ compOf v ≠ none) :
    tune k f m = .ok c ↔ c.kind = k ∧ c.file = f ∧
      (if k = .tree ∨ k = .baby then (v = [] ∧ c.comp = none) ∨ ∃ x, c.comp = some x ∧ ∃ n ∈ compNames x, Same v n else c.comp = none) ∧
      ∀ p ∈ m, p.1 ∈ kindParams k := by
  obtain ⟨ck, cf, cc⟩ := c
  rw [named_iff v hl]
  have fin : ∀ (keys : List Bytes) (k : Kind) (x : Option Comp), finish (erase m keys) ⟨k, f, x⟩ = .ok ⟨ck, cf, cc⟩ ↔
      ck = k ∧ cf = f ∧ cc = x ∧ ∀ p ∈ m, p.1 ∈ keys := by
    intro keys k x
    rw [finish_ok, erase_eq_nil, Choice.mk.injEq]
    constructor
    · rintro ⟨h, rfl, rfl, rfl⟩; exact ⟨rfl, rfl, rfl, h⟩
    · rintro ⟨rfl, rfl, rfl, h⟩; exact ⟨h, rfl, rfl, rfl⟩
  cases k with
  | hash => unfold tune; rw [fin]; simp [hashKeys, kindParams, hashParams]
  | skip => unfold tune; rw [fin]; simp [skipKeys, kindParams]
  | tiny => unfold tune; rw [fin]; simp [kindParams]
  | cache => unfold tune; rw [fin]; simp [kindParams]
  | stdHash => unfold tune; rw [fin]; simp [kindParams]
  | stdTree =>
    have e : m = erase m [] := by simp only [erase]; exact (List.filter_eq_self.mpr (by simp)).symm
    unfold tune
    rw [e, fin, ← e]; simp [kindParams]
  | tree =>
    have hs : search (erase (erase m hashKeys) treeKeys) (asc "key_comparator") [] = [] := by
      have : (erase (erase m hashKeys) treeKeys).lookup (asc "key_comparator") = none := by
        rw [List.lookup_eq_none_iff]
        intro p hp
        have := ((mem_erase _ _ _).mp hp).2
        simp only [bne_iff_ne, ne_eq]
        intro e
        exact this (by rw [← e]; decide)
      simp [search, this]
    have he : erase (erase m hashKeys) treeKeys = erase m (hashKeys ++ treeKeys) := by
      simp only [erase, List.filter_filter]
      apply List.filter_congr
      intro p _
      simp only [List.contains_eq_mem, List.mem_append, Bool.decide_or, Bool.not_or]
      exact Bool.and_comm _ _
    unfold tune
    dsimp only
    rw [hs, if_neg (by simp), he, fin, hv]
    have hx := ht rfl
    have hkp : kindParams .tree = hashKeys ++ treeKeys := rfl
    rw [if_pos (Or.inl rfl), hkp]
    simp only [hx, and_true]
  | baby =>
    unfold tune
    dsimp only
    rw [hv, if_pos (Or.inr rfl)]
    by_cases hx : v ≠ [] ∧ compOf v = none
    · rw [if_pos hx]
      constructor
      · intro h; cases h
      · rintro ⟨-, -, ⟨-, h⟩, -⟩
        rcases h with h | h
        · exact absurd h hx.1
        · exact absurd hx.2 h
    · rw [if_neg hx, fin]
      have hx' : v = [] ∨ compOf v ≠ none := by
        by_cases h : v = []
        · exact Or.inl h
        · exact Or.inr (fun e => hx ⟨h, e⟩)
      simp only [hx', and_true, kindParams]

theorem fileKeys_eq (f : FileKind) : fileKeys f = asc "file" :: fileParams f := by cases f <;> rfl

theorem choose_iff (path : Bytes) (params : Params) (hk : CompKnown path params) (c : Choice) :
    choose path params = .ok c ↔
      Asked path params c.kind ∧ AskedFile params c.file ∧ AskedComp c.kind params c.comp ∧ Plainly params c := by
  have hdbm : search (params.filter fun p => !beginsWith p.1 (asc "ulog_")) (asc "dbm") [] = value params (asc "dbm") := by
    simp only [search, value]; rw [lookup_rest _ _ (by decide)]
  have hfile : search (erase (params.filter fun p => !beginsWith p.1 (asc "ulog_")) [asc "dbm"]) (asc "file") [] = value params (asc "file") := by
    simp only [search, value]; rw [lookup_erase _ _ _ (by decide), lookup_rest _ _ (by decide)]
  have hcomp : ∀ f, search (erase (erase (params.filter fun p => !beginsWith p.1 (asc "ulog_")) [asc "dbm"]) (fileKeys f)) (asc "key_comparator") []
      = value params (asc "key_comparator") := by
    intro f
    simp only [search, value]
    rw [lookup_erase _ _ _ (by cases f <;> decide), lookup_erase _ _ _ (by decide), lookup_rest _ _ (by decide)]
  have hmem : ∀ (k : Kind) (f : FileKind),
      (∀ p ∈ erase (erase (params.filter fun p => !beginsWith p.1 (asc "ulog_")) [asc "dbm"]) (fileKeys f), p.1 ∈ kindParams k) ↔
      ∀ p ∈ params, beginsWith p.1 (asc "ulog_") = false → p.1 ∈ asc "dbm" :: asc "file" :: fileParams f ++ kindParams k := by
    intro k f
    simp only [mem_erase, List.mem_filter, fileKeys_eq, Bool.not_eq_true', List.mem_cons, List.mem_append, List.not_mem_nil, or_false]
    constructor
    · intro h p hp hu
      by_cases h1 : p.1 = asc "dbm"
      · simp [h1]
      · by_cases h2 : p.1 = asc "file" ∨ p.1 ∈ fileParams f
        · rcases h2 with h2 | h2 <;> simp [h2]
        · have := h p ⟨⟨⟨hp, hu⟩, h1⟩, h2⟩
          simp [this]
    · rintro h p ⟨⟨⟨hp, hu⟩, h1⟩, h2⟩
      have := h p hp hu
      simp only [not_or] at h2
      simpa [h1, h2.1, h2.2] using this
  have hcls := class_iff path (value params (asc "dbm"))
  unfold choose
  dsimp only
  rw [hdbm, hfile, lowerCase_eq, lowerCase_eq]
  dsimp only at hcls
  generalize hname : (if (if lowered (value params (asc "dbm")) = [] then guess path else lowered (value params (asc "dbm"))) = [] ∧ path = []
    then asc "tiny" else if lowered (value params (asc "dbm")) = [] then guess path else lowered (value params (asc "dbm"))) = name at hcls ⊢
  have hasked : ∀ k, Asked path params k ↔ classOf name = some k := fun k => (hcls k).symm
  have hfiles : ∀ f, AskedFile params f ↔ fileOf (lowered (value params (asc "file"))) = some f := by
    intro f
    rw [fileOf_iff, ← same_names, lowered_nil_iff]; rfl
  cases hc : classOf name with
  | none =>
    dsimp only
    constructor
    · intro h; cases h
    · rintro ⟨h, -⟩; rw [hasked, hc] at h; cases h
  | some k =>
    dsimp only
    cases hf : fileOf (lowered (value params (asc "file"))) with
    | none =>
      dsimp only
      constructor
      · intro h; cases h
      · rintro ⟨-, h, -⟩; rw [hfiles, hf] at h; cases h
    | some f =>
      dsimp only
      have ht : k = .tree → value params (asc "key_comparator") = [] ∨ compOf (value params (asc "key_comparator")) ≠ none := by
        rintro rfl
        obtain ⟨x, hx⟩ := hk.tree ((hasked _).mpr hc)
        unfold AskedComp at hx
        rw [if_pos (Or.inl rfl), named_iff _ (long_of hk)] at hx
        exact hx.2
      rw [tune_iff k f _ c _ (hcomp f) (long_of hk) ht, hmem, hasked, hfiles, hc, hf]
      unfold AskedComp Plainly
      constructor
      · rintro ⟨rfl, rfl, h1, h2⟩; exact ⟨rfl, rfl, h1, h2⟩
      · rintro ⟨h1, h2, h3, h4⟩
        cases h1; cases h2
        exact ⟨rfl, rfl, h3, h4⟩

theorem params_plain : ∀ (k : Kind) (f : FileKind), ∀ key ∈ asc "dbm" :: asc "file" :: fileParams f ++ kindParams k,
    beginsWith key (asc "ulog_") = false := by
  intro k f
  cases k <;> cases f <;> decide

theorem keys_iff (params : Params) (c : Choice) :
    (∀ p ∈ params, p.1 ∈ asc "dbm" :: asc "file" :: fileParams c.file ++ kindParams c.kind ++ ulogParams) ↔
      Plainly params c ∧ erase (params.filter fun p => beginsWith p.1 (asc "ulog_")) ulogKeys = [] := by
  rw [erase_eq_nil]
  unfold Plainly
  simp only [List.mem_filter]
  have hu : ∀ key ∈ ulogKeys, beginsWith key (asc "ulog_") = true := by decide
  constructor
  · intro h
    refine ⟨fun p hp hb => ?_, fun p ⟨hp, hb⟩ => ?_⟩
    · rcases List.mem_append.mp (h p hp) with h1 | h1
      · exact h1
      · have := hu _ h1; rw [hb] at this; cases this
    · rcases List.mem_append.mp (h p hp) with h1 | h1
      · have := params_plain _ _ _ h1; rw [hb] at this; cases this
      · exact h1
  · rintro ⟨h1, h2⟩ p hp
    cases hb : beginsWith p.1 (asc "ulog_") with
    | false => exact List.mem_append_left _ (h1 p hp hb)
    | true => exact List.mem_append_right _ (h2 p ⟨hp, hb⟩)

theorem opens_iff (k : Kind) (path : Bytes) : opens k path = true ↔ Opens k path := by
  cases k <;> simp [opens, Opens]

theorem wantsLog_iff (env : Env) (params : Params) :
    wantsLog env (params.filter fun p => beginsWith p.1 (asc "ulog_")) = true ↔ LogAsked env.metric params := by
  have h1 : search (params.filter fun p => beginsWith p.1 (asc "ulog_")) (asc "ulog_prefix") [] = value params (asc "ulog_prefix") := by
    simp only [search, value]; rw [lookup_ulog _ _ (by decide)]
  have h2 : search (params.filter fun p => beginsWith p.1 (asc "ulog_")) (asc "ulog_max_file_size") (asc "1Gi")
      = (params.lookup (asc "ulog_max_file_size")).getD (asc "1Gi") := by
    simp only [search]; rw [lookup_ulog _ _ (by decide)]
  unfold wantsLog LogAsked
  simp only [h1, h2, Bool.and_eq_true, decide_eq_true_eq, ne_eq, gt_iff_lt]

/-- C82: opening succeeds if and only if the path and the parameters ask for something that exists and have no parameter that it does not support,
and the database and the update log can be opened; and what is opened is what is asked for. If it fails, there is no database. If the parameters,
apart from those of the update log, make no sense, no file is touched. Missing: parameters with comparators that do not exist, or that ignore case
under their long names: see below. -/
theorem C82_open_partial (env : Env) (s : St) (path : Bytes) (params : Params) (hs : s.dbm = none) (hk : CompKnown path params) :
    ((openAdvanced env s path params).2 = .done ↔
      ∃ c, Chosen path params c ∧ (Opens c.kind path → env.dbmOpens = true) ∧ (LogAsked env.metric params → env.ulogOpens = true)) ∧
    (∀ d, (openAdvanced env s path params).1.dbm = some d →
      Chosen path params d.choice ∧ (d.opened = true ↔ Opens d.choice.kind path) ∧ (d.logger = true ↔ LogAsked env.metric params)) ∧
    ((openAdvanced env s path params).2 ≠ .done → (openAdvanced env s path params).1.dbm = none) ∧
    ((openAdvanced env s path params).2 = .done → ∃ d, (openAdvanced env s path params).1.dbm = some d) ∧
    ((∀ c, ¬ (Asked path params c.kind ∧ AskedFile params c.file ∧ AskedComp c.kind params c.comp ∧ Plainly params c)) →
      (openAdvanced env s path params).1 = s ∧ ∃ e, (openAdvanced env s path params).2 = .invalid e) := by
  have hch := choose_iff path params hk
  have hC : ∀ c, Chosen path params c ↔ choose path params = .ok c ∧ erase (params.filter fun p => beginsWith p.1 (asc "ulog_")) ulogKeys = [] := by
    intro c
    rw [hch]
    constructor
    · intro h
      have := (keys_iff params c).mp h.keys
      exact ⟨⟨h.kind, h.file, h.comp, this.1⟩, this.2⟩
    · rintro ⟨⟨h1, h2, h3, h4⟩, h5⟩
      exact ⟨h1, h2, h3, (keys_iff params c).mpr ⟨h4, h5⟩⟩
  simp only [hC, ← hch, ← opens_iff, ← wantsLog_iff]
  unfold openAdvanced
  rw [if_neg (by simp [hs])]
  cases hcc : choose path params with
  | error e => simp [hs]
  | ok c =>
    dsimp only
    have hnot : ¬ ∀ x : Choice, ¬ (Except.ok c : Except Err Choice) = .ok x := fun h => h c rfl
    simp only [hnot, false_implies, and_true]
    generalize hw : wantsLog env (params.filter fun p => beginsWith p.1 (asc "ulog_")) = w
    generalize hu : erase (params.filter fun p => beginsWith p.1 (asc "ulog_")) ulogKeys = u
    cases ho : opens c.kind path <;> cases hd : env.dbmOpens <;> cases w <;> cases hg : env.ulogOpens <;> cases u <;>
      simp [hs, ho, hd, hg]

/-- C82: two databases are never asked for at once. -/
theorem C82_open_one (path : Bytes) (params : Params) (k k' : Kind) (h : Asked path params k) (h' : Asked path params k') : k = k' := by
  have e := (class_iff path (value params (asc "dbm")) k).mpr h
  have e' := (class_iff path (value params (asc "dbm")) k').mpr h'
  dsimp only at e e'
  rw [e] at e'
  cases e'; rfl

/-- C82: a database that is open is not replaced. -/
theorem C82_open_twice (env : Env) (s : St) (path : Bytes) (params : Params) (d : Inner) (h : s.dbm = some d) :
    openAdvanced env s path params = (s, .precondition) := by
  simp [openAdvanced, h]

/-- C82: `Close` closes, and a call without a database fails, `ProcessMulti` excepted. -/
theorem C82_close_partial (s : St) (m : Method) (r : Res) :
    (s.dbm = none → close s = (s, .precondition) ∧ (m ≠ .processMulti → call s m r = .precondition)) ∧
    (∀ d, s.dbm = some d → (close s).1.dbm = none ∧ (close s).1.open_ = false ∧ call s m r = r ∧
      (s.open_ = d.opened → (close s).2 = .done)) := by
  refine ⟨fun h => ⟨by simp [close, h], fun hm => by simp [call, h, hm]⟩, fun d h => ?_⟩
  refine ⟨by simp [close, h], by simp [close, h], by simp [call, h], fun ho => ?_⟩
  simp [close, h, ho]

/-- C82: a new object that opens a database can close it. -/
theorem C82_open_close (env : Env) (path : Bytes) (params : Params) (h : (openAdvanced env St.init path params).2 = .done) :
    (close (openAdvanced env St.init path params).1).2 = .done := by
  unfold openAdvanced at h ⊢
  rw [if_neg (by simp [St.init])] at h ⊢
  cases hc : choose path params with
  | error e => rw [hc] at h; cases h
  | ok c =>
    rw [hc] at h
    dsimp only at h ⊢
    generalize wantsLog env (params.filter fun p => beginsWith p.1 (asc "ulog_")) = w at *
    generalize erase (params.filter fun p => beginsWith p.1 (asc "ulog_")) ulogKeys = u at *
    revert h
    cases ho : opens c.kind path <;> cases hd : env.dbmOpens <;> cases w <;> cases hg : env.ulogOpens <;> cases u <;>
      simp [St.init, close]

end Verif.Poly
