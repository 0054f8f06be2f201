import Verif.Hash.Restore
import Verif.Hash.Props
/-
C07 and C65: HashDBM after a crash in the middle of a record operation.
-/
namespace Verif.Hash

variable {e : Env}

/-- What a crash in the middle of a call on a database leaves, and what opening that file makes of it. -/
theorem DbOk.crash_restore (he : EnvOk e) {d1 : Db} {t : LSt} (h1 : DbOk e d1 t) (h2 : d1.st.Room)
    {τ : Type} (k : Bytes) (w : Bool) (p : ProcR τ) (hp : ActFits hashFits k (p (t.view k)).1) (n : Nat) :
    ∃ f, crashFile e d1.st k w p n = some f ∧
      ∀ (y : Extra) (stamp cap mr z : Nat) (noShortcuts : Bool), y.Ok → stamp < 2 ^ 64 → 1 ≤ cap → 48 ≤ mr →
        f.length ≤ 2 ^ (8 * d1.st.cfg.ow + d1.st.cfg.ap) → f.length < 2 ^ 63 →
        RestoreRoom e y .default f →
        ∃ d t' num eff, openRestore e y stamp cap mr .default noShortcuts (f ++ List.replicate z 0) = some d ∧ DbOk e (d.counters num eff) t' ∧
          d.st.Room ∧ (t'.view = t.view ∨ t'.view = if w then t.view.act k (p (t.view k)).1 else t.view) ∧
          (d1.st.cfg.inPlace = true ∨ noShortcuts = true → d = d.counters num eff) := by
  obtain ⟨L, g1, g2, g3, g4, g5⟩ := crashFile_spec he h1.inv (by rw [← h1.st]; exact h2) k w p hp n
  refine ⟨_, by rw [h1.st]; exact g1, ?_⟩
  intro y stamp cap mr z ns hy hs hcap hmr hlen hsmall hrr
  obtain ⟨x0, num, eff, a, b, s1, s2, s3, s4, s5, s6⟩ := h1.saved
  obtain ⟨a', b', s7, s8⟩ := g4 a b s5
  have hfr := h1.inv.frame
  rw [s6, ← s8] at hfr
  rw [← s8] at s4
  have ecfg : d1.st.cfg = t.cfg := by rw [h1.st]; rfl
  have hl := render_length (e := e) h1.inv.cfg h1.inv.frame g2.nb
  rw [hl] at hlen hsmall
  rw [ecfg] at hlen ⊢
  have hle : recordBase t.cfg + totalSize t.cfg a' ≤ t.lay.end_ t.cfg := by
    simp only [Lay.end_, s5, totalSize_append]; omega
  obtain ⟨d, t', n', f', o1, o2, o3, o4, o5⟩ := openRestore_spec he s1 h1.inv.cfg s2 s3 g2 hlen hsmall s7 s4 hfr
    (f := render e t.cfg t.pre t.mid L) (by rw [s6, s8]) g5 hle hy hs hcap hmr ns z hrr
  exact ⟨d, t', n', f', o1, o2, o3, by rw [o4]; exact g3, o5⟩

/-- What a crash in the middle of a call leaves, and what opening that file makes of it. -/
theorem crash_restore (he : EnvOk e) {tunes : Int → Tune} (ht : ∀ n, (tunes n).Ok) {c : Cfg} (hc : CfgOk c)
    {x : Extra} (hx : x.Ok) {d0 : Db} {healthy : Bool} (h0 : openImpl x c [] = some (d0, healthy)) (ops : List SOp)
    (hroom : RunRoom e tunes d0 ops) (hf : SRunFits Dict.empty ops)
    {τ : Type} (k : Bytes) (p : ProcR τ) (hp : ActFits hashFits k (p ((run sstep Dict.empty ops).1 k)).1) (n : Nat)
    {before after : Dict} (hbefore : before = (run sstep Dict.empty ops).1) (hafter : after = before.act k (p (before k)).1) :
    ∃ f, crashFile e (run (step e tunes) d0 ops).1.st k true p n = some f ∧
      ∀ (y : Extra) (stamp cap mr z : Nat) (noShortcuts : Bool), y.Ok → stamp < 2 ^ 64 → 1 ≤ cap → 48 ≤ mr →
        f.length ≤ 2 ^ (8 * (run (step e tunes) d0 ops).1.st.cfg.ow + (run (step e tunes) d0 ops).1.st.cfg.ap) → f.length < 2 ^ 63 →
        RestoreRoom e y .default f →
        ∃ d t num eff, openRestore e y stamp cap mr .default noShortcuts (f ++ List.replicate z 0) = some d ∧ DbOk e (d.counters num eff) t ∧
          d.st.Room ∧ (t.view = before ∨ t.view = after) ∧
          ((run (step e tunes) d0 ops).1.st.cfg.inPlace = true ∨ noShortcuts = true → d = d.counters num eff) := by
  obtain ⟨_, _, t, h1, h2, h3, _⟩ := session_dictionary he ht hc hx h0 ops hroom hf
  have ev : (run sstep Dict.empty ops).1 = t.view := by rw [← h3]
  subst hafter hbefore
  rw [ev] at hp ⊢
  exact h1.crash_restore he h2 k true p hp n

/-- C07: take any history of calls on a new HashDBM in either update mode, and then a call of `Process` with any
processor that crashes between any two of its file writes (each single write being atomic), leaving any number of zeros
behind the end of the file. Opening the file that is left, in the default restore mode, with the shortcuts of the restoration
allowed or not, gives a database in which `Get` of every key returns what it would have returned before that call, or
in which `Get` of every key returns what it would have returned after it. `after` differs from `before` in the key of the
call only. The conditions: the records are within the size limits, and the files are not too large for the offset width. -/
theorem C07_hash_crash_atomic (he : EnvOk e) {tunes : Int → Tune} (ht : ∀ n, (tunes n).Ok) {c : Cfg} (hc : CfgOk c)
    {x : Extra} (hx : x.Ok) {d0 : Db} {healthy : Bool} (h0 : openImpl x c [] = some (d0, healthy)) (ops : List SOp)
    (hroom : RunRoom e tunes d0 ops) (hf : SRunFits Dict.empty ops)
    {τ : Type} (k : Bytes) (p : ProcR τ) (hp : ActFits hashFits k (p ((run sstep Dict.empty ops).1 k)).1) (n : Nat)
    {before after : Dict} (hbefore : before = (run sstep Dict.empty ops).1) (hafter : after = before.act k (p (before k)).1) :
    ∃ f, crashFile e (run (step e tunes) d0 ops).1.st k true p n = some f ∧
      ∀ (y : Extra) (stamp cap mr z : Nat) (noShortcuts : Bool), y.Ok → stamp < 2 ^ 64 → 1 ≤ cap → 48 ≤ mr →
        f.length ≤ 2 ^ (8 * (run (step e tunes) d0 ops).1.st.cfg.ow + (run (step e tunes) d0 ops).1.st.cfg.ap) → f.length < 2 ^ 63 →
        RestoreRoom e y .default f →
        ∃ d dict, openRestore e y stamp cap mr .default noShortcuts (f ++ List.replicate z 0) = some d ∧ (dict = before ∨ dict = after) ∧
          (∀ key, (Api.get (dbImpl e) d key).2 = match dict key with | some v => (.success, some v) | none => (.notFound, none)) ∧
          d.st.bad = false := by
  obtain ⟨f, h1, h2⟩ := crash_restore he ht hc hx h0 ops hroom hf k p hp n hbefore hafter
  refine ⟨f, h1, ?_⟩
  intro y stamp cap mr z ns hy hs hcap hmr hlen hsmall hrr
  obtain ⟨d, t, num, eff, o1, o2, o3, o4, _⟩ := h2 y stamp cap mr z ns hy hs hcap hmr hlen hsmall hrr
  refine ⟨d, t.view, o1, o4, fun key => ?_, ?_⟩
  · rw [← get_counters d num eff key]
    exact view_get he o2 o3 key
  · have : (d.counters num eff).st.bad = false := by rw [o2.st]; exact o2.inv.ok
    exact this

/-- C65 (part): after such a crash and restoration, in the in-place mode or without the shortcuts, the record count and the
effective data size are those of the restored contents, and every further history of calls, with `Clear`, `Rebuild` and
reopening, gives the outcomes of the same history on a dictionary with the restored contents.

Missing: the appending mode with the shortcuts, where it is false; see `C65_hash_restored_violated`. -/
theorem C65_hash_restored_partial (he : EnvOk e) {tunes : Int → Tune} (ht : ∀ n, (tunes n).Ok) {c : Cfg} (hc : CfgOk c)
    {x : Extra} (hx : x.Ok) {d0 : Db} {healthy : Bool} (h0 : openImpl x c [] = some (d0, healthy)) (ops : List SOp)
    (hroom : RunRoom e tunes d0 ops) (hf : SRunFits Dict.empty ops)
    {τ : Type} (k : Bytes) (p : ProcR τ) (hp : ActFits hashFits k (p ((run sstep Dict.empty ops).1 k)).1) (n : Nat)
    {before after : Dict} (hbefore : before = (run sstep Dict.empty ops).1) (hafter : after = before.act k (p (before k)).1) :
    ∃ f, crashFile e (run (step e tunes) d0 ops).1.st k true p n = some f ∧
      ∀ (y : Extra) (stamp cap mr z : Nat) (noShortcuts : Bool), y.Ok → stamp < 2 ^ 64 → 1 ≤ cap → 48 ≤ mr →
        f.length ≤ 2 ^ (8 * (run (step e tunes) d0 ops).1.st.cfg.ow + (run (step e tunes) d0 ops).1.st.cfg.ap) → f.length < 2 ^ 63 →
        RestoreRoom e y .default f → (run (step e tunes) d0 ops).1.st.cfg.inPlace = true ∨ noShortcuts = true →
        ∃ d dict, openRestore e y stamp cap mr .default noShortcuts (f ++ List.replicate z 0) = some d ∧ (dict = before ∨ dict = after) ∧
          dict.Counted d.st.mem.num d.st.mem.eff ∧
          ∀ later : List SOp, RunRoom e tunes d later → SRunFits dict later →
            (run (step e tunes) d later).2 = (run sstep dict later).2 ∧ (run (step e tunes) d later).1.st.bad = false ∧
            (run sstep dict later).1.Counted (run (step e tunes) d later).1.st.mem.num (run (step e tunes) d later).1.st.mem.eff := by
  obtain ⟨f, h1, h2⟩ := crash_restore he ht hc hx h0 ops hroom hf k p hp n hbefore hafter
  refine ⟨f, h1, ?_⟩
  intro y stamp cap mr z ns hy hs hcap hmr hlen hsmall hrr hmode
  obtain ⟨d, t, num, eff, o1, o2, o3, o4, o5⟩ := h2 y stamp cap mr z ns hy hs hcap hmr hlen hsmall hrr
  rw [← o5 hmode] at o2
  refine ⟨d, t.view, o1, o4, ?_, fun later hlr hlf => ?_⟩
  · rw [o2.st]; exact o2.inv.counted
  · obtain ⟨t', g1, g2, g3, _⟩ := run_spec he ht later o2 hlr hlf
    refine ⟨by rw [← g2], by rw [g1.st]; exact g1.inv.ok, ?_⟩
    rw [← g2]
    show t'.view.Counted _ _
    rw [g1.st]; exact g1.inv.counted

end Verif.Hash
