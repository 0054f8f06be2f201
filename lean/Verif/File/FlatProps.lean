import Verif.File.Flat
import Verif.Tiny.Props
/-
Property theorems C28: saved files load back.
-/
namespace Verif.Flat
open Verif Verif.Codec

/-- SPECIFICATION: the effect of storing the pairs of a list in order. -/
def setAll (d : Dict) : List (Bytes × Bytes) → Dict
  | [] => d
  | (k, v) :: l => setAll (d.upd k (some v)) l

/-- SPECIFICATION: sizes the format and the reader can hold (much more than the 2^40 limit of the library). -/
def Small (l : List (Bytes × Bytes)) : Prop := ∀ x ∈ l, x.1.length < 2 ^ 49 ∧ x.2.length < 2 ^ 49

/-- The pairs as the sequence of records in a file. -/
def pairs (l : List (Bytes × Bytes)) : List (Kind × Bytes) := l.flatMap fun x => [(.normal, x.1), (.normal, x.2)]

theorem exportFile_eq (l) : exportFile l = records (pairs l) := by
  induction l with
  | nil => rfl
  | cons x l ih =>
    simp only [exportFile, List.flatMap_cons] at ih ⊢
    rw [ih]
    simp [records, pairs]

theorem pairs_cons (x l) : pairs (x :: l) = (.normal, x.1) :: (.normal, x.2) :: pairs l := by simp [pairs]

/-- C28: `FlatRecord::Read` at the place where a record was written gives back its kind and data, whatever surrounds
it in the file. -/
theorem C28_record (k : Kind) (d pre post : Bytes) (h : d.length < 2 ^ 40) :
    readRecord (pre ++ record k d ++ post) pre.length = .ok (k, d) := by
  have hrl := record_length k d
  have hs := sizeVarNum_le7 (n := d.length) (by omega)
  have hs1 := sizeVarNum_pos d.length
  generalize hf : pre ++ record k d ++ post = file
  have hpos : file.drop pre.length = record k d ++ post := by
    rw [← hf, List.append_assoc, List.drop_left]
  have hl : file.length = pre.length + ((record k d).length + post.length) := by
    rw [← hf]; simp
  simp only [readRecord]
  generalize hm : min (file.length - pre.length) (2 ^ 40) = m
  have hm1 : d.length ≤ m := by omega
  have hm2 : min m 48 ≤ (record k d).length + post.length := by omega
  rw [if_neg (by omega)]
  have hb : readAt file pre.length (min m 48) = some ((record k d ++ post).take (min m 48)) := by
    rw [readAt, if_pos (by omega), hpos]
  have hbl : ((record k d ++ post).take (min m 48)).length = min m 48 := by
    rw [List.length_take, List.length_append]; omega
  have hpre := List.take_prefix (min m 48) (record k d ++ post)
  simp only [hb]
  generalize (record k d ++ post).take (min m 48) = buf at *
  have hp := parseHead_prefix (by omega) hpre (by omega)
  simp only [hp.1]
  rw [if_neg (by omega)]
  by_cases hc : d.length ≤ (buf.drop (1 + sizeVarNum d.length)).length
  · simp only [hc, if_true, take_prefix_of_prefix hp.2 hc]
  · simp only [hc, if_false]
    have hw : (writeVarNum d.length).length = sizeVarNum d.length := writeVarNum_length _
    have : (file.drop (pre.length + (1 + sizeVarNum d.length))).take d.length = d := by
      rw [← List.drop_drop, hpos, record, List.cons_append, Nat.add_comm 1, List.drop_succ_cons, List.append_assoc,
        ← hw, List.drop_left, List.take_left]
    rw [readAt, if_pos (by omega), this]

/-- C28: for every sequence of records, every buffer size of the reader and every content, the reader returns the
written records with their kinds, in order, and then NOT_FOUND_ERROR; the only exception is an empty record at the
very end of the file, which it does not see (`visible`). -/
theorem C28_reader_partial (l : List (Kind × Bytes)) (hd : ∀ x ∈ l, x.2.length < 2 ^ 49) (bufferSize fuel : Nat)
    (hf : l.length < fuel) : readAll (records l) fuel (Reader.new bufferSize) = (visible l, some .notFound) :=
  readAll_spec l hd _ _ (At.new _ _) hf

/-- C28: nothing is lost when the last record is not empty. -/
theorem C28_reader_all (l : List (Kind × Bytes)) (hd : ∀ x ∈ l, x.2.length < 2 ^ 49) (bufferSize fuel : Nat)
    (hf : l.length < fuel) (hlast : ∀ x, l.getLast? = some x → x.2 ≠ []) :
    readAll (records l) fuel (Reader.new bufferSize) = (l, some .notFound) := by
  rw [C28_reader_partial l hd _ _ hf]
  have : visible l = l := by
    simp only [visible]
    split
    · rename_i h; exact absurd rfl (hlast _ h)
    · rfl
  rw [this]

example : readAll (records [(.metadata, [7]), (.normal, []), (.normal, List.replicate 300 1), (.normal, [2])]) 9
    (Reader.new 1) = ([(.metadata, [7]), (.normal, []), (.normal, List.replicate 300 1), (.normal, [2])], some .notFound) := by
  decide +kernel

/-- C28 is violated for the last record of a file: a file consisting of a record with an empty value at its end is
read without that value. -/
theorem C28_reader_violated : readAll (records [(.normal, [1]), (.normal, [])]) 9 (Reader.new 0) =
    ([(.normal, [1])], some .notFound) := by decide +kernel

/-! The import loop. -/

/-- The storing call behaves as `Set` on a dictionary. -/
structure Sets {σ : Type} (setf : σ → Bytes → Bytes → σ × Code) (inv : σ → Prop) (view : σ → Dict)
    (fits : Bytes → Bytes → Prop) : Prop where
  ok : ∀ s k v, inv s → fits k v → (setf s k v).2 = .success ∧ inv (setf s k v).1 ∧
    view (setf s k v).1 = (view s).upd k (some v)

theorem dbmSet_sets {σ : Type} {D : DbmImpl σ} {inv view fits} (L : Lawful D inv view fits) :
    Sets (dbmSet D) inv view fits := by
  refine ⟨fun s k v hi hf => ?_⟩
  have h := Api.C58_set L s k v true hi hf
  rw [if_neg (by simp)] at h
  exact ⟨h.2.2.1, h.1, h.2.2.2⟩

theorem read_ok {file r k d rest} (h : At file r (record k d ++ rest)) (hd : d.length < 2 ^ 49)
    (h3 : 3 ≤ (record k d ++ rest).length) : ∃ r', r.read file = (r', .ok (k, d)) ∧ At file r' rest := by
  have := read_spec h hd h3
  rcases he : r.read file with ⟨r', y⟩
  rw [he] at this
  exact ⟨r', by rw [← this.1], this.2⟩

theorem read_fin {file r rest} (h : At file r rest) (hr : rest.length ≤ 2) :
    ∃ r', r.read file = (r', .error .notFound) := by
  have := read_end h hr
  rcases he : r.read file with ⟨r', y⟩
  rw [he] at this
  exact ⟨r', by rw [← this]⟩

theorem importLoop_spec {σ : Type} {setf : σ → Bytes → Bytes → σ × Code} {inv : σ → Prop} {view : σ → Dict}
    {fits : Bytes → Bytes → Prop} (S : Sets setf inv view fits) {file : Bytes} (l : List (Bytes × Bytes))
    (tail : Bytes) (hs : Small l) (hf : ∀ x ∈ l, fits x.1 x.2)
    (hlast : tail = [] → ∀ x, l.getLast? = some x → x.2 ≠ []) :
    ∀ (r : Reader) (s : σ) (fuel : Nat), At file r (exportFile l ++ tail) → inv s → l.length < fuel →
      ∃ r' s', importLoop file setf fuel r s = importLoop file setf (fuel - l.length) r' s' ∧ At file r' tail ∧
        inv s' ∧ view s' = setAll (view s) l := by
  induction l with
  | nil => intro r s fuel h hi _; exact ⟨r, s, rfl, h, hi, rfl⟩
  | cons x l ih =>
    obtain ⟨k, v⟩ := x
    intro r s fuel h hi hfu
    obtain ⟨f, rfl⟩ : ∃ f, fuel = f + 1 := ⟨fuel - 1, by omega⟩
    simp only [List.length_cons] at hfu
    have hk := hs (k, v) (by simp)
    have e : exportFile ((k, v) :: l) ++ tail = record .normal k ++ (record .normal v ++ (exportFile l ++ tail)) := by
      simp [exportFile]
    rw [e] at h
    have hv2 := record_length_ge .normal v
    have hk2 := record_length_ge .normal k
    obtain ⟨r1, e1, h1⟩ := read_ok h hk.1 (by simp only [List.length_append]; omega)
    obtain ⟨r2, e2, h2⟩ := read_ok h1 hk.2 (by
      simp only [List.length_append]
      by_cases hv : v = []
      · cases l with
        | nil =>
          cases tail with
          | nil => exact absurd hv (hlast rfl (k, v) rfl)
          | cons _ _ => simp only [List.length_cons]; omega
        | cons y l =>
          have := record_length_ge .normal y.1
          simp only [exportFile, List.flatMap_cons, List.length_append]; omega
      · have := record_nonempty_length (k := .normal) hv; omega)
    have hset := S.ok s k v hi (hf (k, v) (by simp))
    rcases he : setf s k v with ⟨s1, c⟩
    rw [he] at hset
    dsimp only at hset
    obtain ⟨rfl, hi1, hv1⟩ := hset
    obtain ⟨r', s', e', ha, hi', hv'⟩ := ih (fun y hy => hs y (by simp [hy])) (fun y hy => hf y (by simp [hy]))
      (fun ht y hy => hlast ht y (by
        cases l with
        | nil => simp at hy
        | cons z l => rw [List.getLast?_cons_cons]; exact hy)) r2 s1 f h2 hi1 (by omega)
    refine ⟨r', s', ?_, ha, hi', ?_⟩
    · rw [importLoop]
      simp only [e1, e2, he]
      rw [e']
      congr 1
      simp only [List.length_cons]; omega
    · rw [hv', hv1]; rfl

theorem exportFile_length_ge (l) : 4 * l.length ≤ (exportFile l).length := by
  induction l with
  | nil => simp
  | cons x l ih =>
    have := record_length_ge .normal x.1
    have := record_length_ge .normal x.2
    simp only [exportFile, List.flatMap_cons, List.length_append, List.length_cons] at ih ⊢
    omega

/-- C28: importing an exported file into any database stores exactly the exported pairs over what was there, and
reports SUCCESS, provided that the value written last is not empty. (What is missing: an empty last value, see
`C28_violated`.) -/
theorem C28_import_partial {σ : Type} {D : DbmImpl σ} {inv view fits} (L : Lawful D inv view fits)
    (l : List (Bytes × Bytes)) (hs : Small l) (hf : ∀ x ∈ l, fits x.1 x.2)
    (hlast : ∀ x, l.getLast? = some x → x.2 ≠ []) (s : σ) (hi : inv s) :
    ∃ s', importFile (exportFile l) (dbmSet D) s = some (s', .success) ∧ inv s' ∧ view s' = setAll (view s) l := by
  have hl := exportFile_length_ge l
  obtain ⟨r', s', e, ha, hi', hv⟩ := importLoop_spec (dbmSet_sets L) (file := exportFile l) l [] hs hf (fun _ => hlast)
    (Reader.new 0) s ((exportFile l).length + 1) (by rw [List.append_nil]; exact At.new _ _) hi (by omega)
  obtain ⟨r2, e2⟩ := read_fin ha (by simp)
  refine ⟨s', ?_, hi', hv⟩
  rw [importFile, e]
  obtain ⟨f, hf⟩ : ∃ f, (exportFile l).length + 1 - l.length = f + 1 := ⟨_, by
    show _ = ((exportFile l).length - l.length) + 1
    omega⟩
  rw [hf, importLoop]
  simp only [e2]
  rfl

theorem setAll_lists {d : Dict} {l : List (Bytes × Bytes)} (h : d.Lists l) : setAll Dict.empty l = d := by
  have key : ∀ (l : List (Bytes × Bytes)) (d0 : Dict), (l.map (·.1)).Nodup → ∀ k,
      setAll d0 l k = match l.find? (fun x => x.1 = k) with | some x => some x.2 | none => d0 k := by
    intro l
    induction l with
    | nil => intro d0 _ k; rfl
    | cons x l ih =>
      intro d0 hn k
      obtain ⟨k1, v1⟩ := x
      simp only [List.map_cons, List.nodup_cons] at hn
      rw [setAll, ih _ hn.2]
      by_cases hk : k1 = k
      · subst hk
        have : l.find? (fun x => x.1 = k1) = none := by
          rw [List.find?_eq_none]
          intro y hy hc
          exact hn.1 (List.mem_map.mpr ⟨y, hy, by simpa using hc⟩)
        simp [this, Dict.upd]
      · rw [List.find?_cons_of_neg (by simpa using hk)]
        cases l.find? (fun x => x.1 = k) with
        | some y => rfl
        | none => simp [Dict.upd, Ne.symm hk]
  funext k
  rw [key l _ h.1]
  cases hf : l.find? (fun x => x.1 = k) with
  | none =>
    cases hd : d k with
    | none => rfl
    | some v =>
      have := (h.2 k v).2 hd
      rw [List.find?_eq_none] at hf
      exact absurd (by simp) (hf _ this)
  | some x =>
    have h1 := List.mem_of_find?_eq_some hf
    have h2 := List.find?_some hf
    simp only [decide_eq_true_eq] at h2
    subst h2
    exact ((h.2 x.1 x.2).1 h1).symm

/-- C28: the records of any database, exported in any order and imported into an empty database of any class, are the
same records — provided that the value written last is not empty. -/
theorem C28_export_import_partial {σ : Type} {D : DbmImpl σ} {inv view fits} (L : Lawful D inv view fits)
    (d : Dict) (l : List (Bytes × Bytes)) (hl : d.Lists l) (hs : Small l) (hf : ∀ x ∈ l, fits x.1 x.2)
    (hlast : ∀ x, l.getLast? = some x → x.2 ≠ []) (s : σ) (hi : inv s) (he : view s = Dict.empty) :
    ∃ s', importFile (exportFile l) (dbmSet D) s = some (s', .success) ∧ inv s' ∧ view s' = d := by
  obtain ⟨s', h1, h2, h3⟩ := C28_import_partial L l hs hf hlast s hi
  exact ⟨s', h1, h2, by rw [h3, he, setAll_lists hl]⟩

/-- C28, on-memory databases: the saved file (metadata record first) loads back to the same records when the database
is opened again — provided that the value written last is not empty. -/
theorem C28_save_load_partial {σ : Type} {D : DbmImpl σ} {inv view fits} (L : Lawful D inv view fits) (info : Bytes)
    (hinfo : info ≠ []) (hsz : info.length < 2 ^ 49)
    (d : Dict) (l : List (Bytes × Bytes)) (hl : d.Lists l) (hs : Small l) (hf : ∀ x ∈ l, fits x.1 x.2)
    (hlast : ∀ x, l.getLast? = some x → x.2 ≠ []) (s : σ) (hi : inv s) (he : view s = Dict.empty) :
    ∃ s', importFile (saveFile info l) (dbmSet D) s = some (s', .success) ∧ inv s' ∧ view s' = d := by
  have hlen := exportFile_length_ge l
  have h3 := record_nonempty_length (k := .metadata) hinfo
  have hll : (saveFile info l).length = (record .metadata info).length + (exportFile l).length := by simp [saveFile]
  obtain ⟨r1, e1, h1⟩ := read_ok (At.new (saveFile info l) 0) hsz (by rw [List.length_append]; omega)
  obtain ⟨r', s', e, ha, hi', hv⟩ := importLoop_spec (dbmSet_sets L) (file := saveFile info l) l [] hs hf
    (fun _ => hlast) r1 s (saveFile info l).length (by rw [List.append_nil]; exact h1) hi (by omega)
  obtain ⟨r2, e2⟩ := read_fin ha (by simp)
  refine ⟨s', ?_, hi', by rw [hv, he, setAll_lists hl]⟩
  rw [importFile, importLoop]
  simp only [e1]
  rw [e]
  obtain ⟨f, hf⟩ : ∃ f, (saveFile info l).length - l.length = f + 1 := ⟨(saveFile info l).length - l.length - 1, by omega⟩
  rw [hf, importLoop]
  simp only [e2]
  rfl

/-- C28 is violated when the value written last is empty: the load fails with BROKEN_DATA_ERROR and the last record is
missing, for every other content. -/
theorem C28_violated {σ : Type} {D : DbmImpl σ} {inv view fits} (L : Lawful D inv view fits)
    (l : List (Bytes × Bytes)) (key : Bytes) (hk : key.length < 2 ^ 49) (hs : Small l) (hf : ∀ x ∈ l, fits x.1 x.2)
    (s : σ) (hi : inv s) :
    ∃ s', importFile (exportFile (l ++ [(key, [])])) (dbmSet D) s = some (s', .brokenData) ∧ inv s' ∧
      view s' = setAll (view s) l := by
  have e0 : exportFile (l ++ [(key, [])]) = exportFile l ++ (record .normal key ++ record .normal []) := by
    simp [exportFile]
  have hr := record_length_ge .normal key
  have hlen := exportFile_length_ge (l ++ [(key, [])])
  rw [List.length_append] at hlen
  simp only [List.length_cons, List.length_nil] at hlen
  obtain ⟨r', s', e, ha, hi', hv⟩ := importLoop_spec (dbmSet_sets L) (file := exportFile (l ++ [(key, [])])) l
    (record .normal key ++ record .normal []) hs hf
    (fun h => by rw [List.append_eq_nil_iff] at h; simp [record] at h)
    (Reader.new 0) s ((exportFile (l ++ [(key, [])])).length + 1) (by rw [← e0]; exact At.new _ _) hi (by omega)
  obtain ⟨r1, e1, h1⟩ := read_ok ha hk (by
    have := record_length_ge .normal []
    rw [List.length_append]; omega)
  obtain ⟨r2, e2⟩ := read_fin h1 (by decide)
  refine ⟨s', ?_, hi', hv⟩
  rw [importFile, e]
  obtain ⟨f, hf⟩ : ∃ f, (exportFile (l ++ [(key, [])])).length + 1 - l.length = f + 1 := ⟨_, by
    show _ = ((exportFile (l ++ [(key, [])])).length - l.length) + 1
    omega⟩
  rw [hf, importLoop]
  simp only [e1, e2]
  rfl

/-- C28: exporting the keys writes every key once, in the order of the traversal. -/
theorem C28_export_keys_partial (l : List (Bytes × Bytes)) (hs : Small l) (bufferSize : Nat)
    (hlast : ∀ x, l.getLast? = some x → x.1 ≠ []) :
    readAll (exportKeys l) (l.length + 1) (Reader.new bufferSize) =
      (l.map fun x => (.normal, x.1), some .notFound) := by
  have e : exportKeys l = records (l.map fun x => (.normal, x.1)) := by
    simp [exportKeys, records, List.flatMap_map]
  rw [e]
  apply C28_reader_all
  · intro x hx
    obtain ⟨y, hy, rfl⟩ := List.mem_map.mp hx
    exact (hs y hy).1
  · simp
  · intro x hx
    rw [List.getLast?_map] at hx
    cases hg : l.getLast? with
    | none => rw [hg] at hx; simp at hx
    | some y => rw [hg] at hx; simp only [Option.map_some, Option.some.injEq] at hx; rw [← hx]; exact hlast y hg

/-- A database with an empty key and an empty value survives, in this order of the records. -/
example : ∃ s', importFile (exportFile [([1], [10, 11]), ([], []), ([2], [20])]) (dbmSet Dict.impl) Dict.empty =
    some (s', .success) ∧ s' [] = some [] ∧ s' [1] = some [10, 11] ∧ s' [2] = some [20] := by
  obtain ⟨s', h1, _, h3⟩ := C28_import_partial (Dict.lawful fun _ _ => True) [([1], [10, 11]), ([], []), ([2], [20])]
    (by intro x hx; simp at hx; rcases hx with rfl | rfl | rfl <;> decide) (fun _ _ => trivial)
    (by intro x hx; simp at hx; subst hx; simp) Dict.empty trivial
  refine ⟨s', h1, ?_⟩
  have : s' = setAll Dict.empty [([1], [10, 11]), ([], []), ([2], [20])] := h3
  rw [this]
  decide

end Verif.Flat

namespace Verif.Tiny
open Verif Verif.Flat

/-- `TinyDBMImpl::ExportRecords` (tkrzw_dbm_tiny.cc 589-628): metadata, then the chain of every bucket. `info` stands
for the serialized metadata, which holds the wall time. -/
def saved (info : Bytes) (s : State) : Bytes := saveFile info (s.buckets.flatMap recs)

theorem lists {hash : Bytes → Nat → Nat} {s : State} (hi : Inv hash s) :
    (view hash s).Lists (s.buckets.flatMap recs) := ⟨all_keys_nodup hi, fun k v => (mem_view hi k v).symm⟩

theorem chain_fits {c rs} (h : Chain c rs) : ∀ x ∈ rs, recFits x.1 x.2 := by
  induction h with
  | nil => simp
  | cons hb _ ih =>
    intro x hx
    rcases List.mem_cons.mp hx with rfl | hx
    · exact hb.1
    · exact ih x hx

theorem all_fit {hash : Bytes → Nat → Nat} {s : State} (hi : Inv hash s) :
    ∀ x ∈ s.buckets.flatMap recs, recFits x.1 x.2 := by
  intro x hx
  obtain ⟨c, hc, hx⟩ := List.mem_flatMap.mp hx
  obtain ⟨i, _, rfl⟩ := mem_getD hc
  exact chain_fits (hi.chain i) x hx

/-- C28 for TinyDBM: after any history of calls, the file saved by `Synchronize` or `Close` and opened again, possibly
with another number of buckets, holds the same records — provided that the value of the record written last is not
empty. -/
theorem C28_tiny_save_load_partial {hash : Bytes → Nat → Nat} (hr : InRange hash) (n m : Int) (ops : List Op)
    (hf : RunFits recFits Dict.empty ops) (info : Bytes) (hinfo : info ≠ []) (hsz : info.length < 2 ^ 49)
    (hlast : ∀ x, ((run (step hash) (init n) ops).1.buckets.flatMap recs).getLast? = some x → x.2 ≠ []) :
    ∃ s', importFile (saved info (run (step hash) (init n) ops).1) (dbmSet (impl hash)) (init m) = some (s', .success) ∧
      Inv hash s' ∧ view hash s' = (Dict.run Dict.empty ops).1 := by
  have h0 := init_spec (hash := hash) n
  have h := run_sim (step hash) (Inv hash) (view hash) recFits (step_sim hr) ops (init n) h0.1
    (by rw [h0.2]; exact hf)
  rw [h0.2] at h
  have hm := init_spec (hash := hash) m
  have hfit := all_fit h.1
  have hl := lists h.1
  rw [show view hash (run (step hash) (init n) ops).1 = (Dict.run Dict.empty ops).1 by rw [← h.2]] at hl
  exact C28_save_load_partial (C01_lawful hr) info hinfo hsz _ _ hl
    (fun x hx => by have := hfit x hx; simp only [recFits, blkSize] at this; omega) hfit hlast (init m) hm.1 hm.2

/-- The hypotheses hold for the sample history, and reopening with 7 buckets works. -/
example : (importFile (saved [1] (run (step sampleHash) (init 1) sampleOps).1) (dbmSet (impl sampleHash)) (init 7)).map
    (fun x => (x.2, x.1.count)) = some (.success, (run (step sampleHash) (init 1) sampleOps).1.count) ∧
    ((run (step sampleHash) (init 1) sampleOps).1.buckets.flatMap recs).getLast?.map (·.2.isEmpty) = some false := by
  decide +kernel

end Verif.Tiny
