import Verif.File.Positional
/-
C60: the positional-access file keeps the bytes written to it, in all its access modes.
-/
namespace Verif.Positional
open Verif
open Verif.PageCache (Disk bytes slice overwrite align putAt withRange Seen)

/-! ### SPECIFICATION -/

/-- A file: its size, and its bytes as far as they are specified. The bytes between the former end and a write beyond it, and the bytes that come
back when a truncated file grows again, are not specified. -/
structure File where
  size : Nat
  data : Nat → Option UInt8

inductive Op where
  | read (off size : Nat)
  | write (off : Nat) (data : Bytes)
  | append (data : Bytes)
  | truncate (size : Nat)
  | truncateFakely (size : Nat)
  | synchronize (off size : Nat)
  | setHeadBuffer (size : Nat)
  /-- Closing the file and opening it again. -/
  | reopen

inductive Out where
  | got (b : Bytes)
  | at_ (off : Nat)
  | done
  | failed
  deriving DecidableEq

/-- The file after bytes are stored at an offset. -/
def File.stored (f : File) (off : Nat) (data : Bytes) : File :=
  ⟨max f.size (off + data.length), fun pos => if off ≤ pos ∧ pos < off + data.length then data[pos - off]? else f.data pos⟩

/-- The file cut at a size, or extended. -/
def File.resized (f : File) (n : Nat) : File := ⟨n, fun pos => if pos < n then f.data pos else none⟩

/-- What an operation gives, and the file after it. -/
inductive File.Does : File → Op → Out → File → Prop
  | read (f : File) (off size : Nat) (b : Bytes) (hin : off + size ≤ f.size) (hlen : b.length = size)
      (hb : ∀ i v, i < size → f.data (off + i) = some v → b[i]? = some v) : Does f (.read off size) (.got b) f
  | readFails (f : File) (off size : Nat) (hout : f.size < off + size) : Does f (.read off size) .failed f
  | write (f : File) (off : Nat) (data : Bytes) : Does f (.write off data) .done (f.stored off data)
  | append (f : File) (data : Bytes) : Does f (.append data) (.at_ f.size) (f.stored f.size data)
  | truncate (f : File) (n : Nat) : Does f (.truncate n) .done (f.resized n)
  | truncateFakely (f : File) (n : Nat) : Does f (.truncateFakely n) .done (f.resized n)
  | truncateFails (f : File) (n : Nat) (h : f.size < n) : Does f (.truncateFakely n) .failed f
  | synchronize (f : File) (off size : Nat) : Does f (.synchronize off size) .done f
  | setHeadBuffer (f : File) (n : Nat) : Does f (.setHeadBuffer n) .done f
  | reopen (f : File) : Does f .reopen .done f

inductive File.DoesAll : File → List Op → List Out → File → Prop
  | nil (f : File) : DoesAll f [] [] f
  | cons {f f' f'' : File} {o : Op} {out : Out} {os : List Op} {outs : List Out} (h : File.Does f o out f') (h' : DoesAll f' os outs f'') :
      DoesAll f (o :: os) (out :: outs) f''

/-- The file of a disk. -/
def File.ofDisk (d : Disk) : File := ⟨d.len, fun pos => if pos < d.len then some (d.data pos) else none⟩

/-! ### Running the model -/

def flag (b : Bool) : Out := if b then .done else .failed

def step (c : Cfg) (p : Pos) : Op → Pos × Out
  | .read off size => let r := read c p off size; (r.1, match r.2 with | some b => .got b | none => .failed)
  | .write off data => let r := write c p off data; (r.1, flag r.2)
  | .append data => let r := append c p data; (r.1, match r.2 with | some o => .at_ o | none => .failed)
  | .truncate n => let r := truncate c p n; (r.1, flag r.2)
  | .truncateFakely n => let r := truncateFakely p n; (r.1, flag r.2)
  | .synchronize off size => let r := synchronize c p off size; (r.1, flag r.2)
  | .setHeadBuffer n => let r := setHead c p n; (r.1, flag r.2)
  | .reopen => (open_ c (close c p) true, .done)

def run (c : Cfg) : Pos → List Op → Pos × List Out
  | p, [] => (p, [])
  | p, o :: os => let r := step c p o; let r' := run c r.1 os; (r'.1, r.2 :: r'.2)

/-- The block size is positive, and divides the page size or is a multiple of it, as powers of two do. -/
def Cfg.Ok (c : Cfg) : Prop := 0 < c.block ∧ c.unit % c.block = 0

/-! ### Proofs -/

theorem env_page (c : Cfg) : c.env.page = c.block := rfl

theorem align_le {n a : Nat} : n ≤ align n a := by
  unfold align
  split <;> omega

theorem align_mod {n a : Nat} (ha : 0 < a) : align n a % a = 0 := by
  rw [PageCache.align_eq ha]
  exact Nat.mul_mod_left _ _

theorem align_mul {n a b : Nat} (ha : 0 < a) (hb : a % b = 0) : align n a % b = 0 := by
  rw [PageCache.align_eq ha]
  exact Nat.mod_eq_zero_of_dvd (Nat.dvd_trans (Nat.dvd_of_mod_eq_zero hb) (Nat.dvd_mul_left _ _))

theorem align_le_of {n a t : Nat} (ha : 0 < a) (h : n ≤ t) (ht : t % a = 0) : align n a ≤ t := by
  rw [PageCache.align_eq ha]
  obtain ⟨k, hk⟩ := Nat.dvd_of_mod_eq_zero ht
  subst hk
  rw [Nat.mul_comm a k]
  apply Nat.mul_le_mul_right
  have : (n + a - 1) / a < k + 1 := by
    apply (Nat.div_lt_iff_lt_mul ha).2
    rw [Nat.add_mul, Nat.mul_comm k a]
    omega
  omega

/-- Whether the reading and writing go through the cache. -/
def Cfg.uses (c : Cfg) : Prop := c.cached = true ∧ c.block ≠ 1

/-- The state of the file under the head buffer. -/
structure Under (c : Cfg) (V : Nat → Prop) (s : PageCache.State) : Prop where
  ok : PageCache.Ok c.env V s
  empty : ¬ c.uses → ∀ i, s.slots i = []

theorem view_empty {c : Cfg} {s : PageCache.State} (h : ∀ i, s.slots i = []) (pos : Nat) : PageCache.view c.env s pos = s.disk.data pos := by
  unfold PageCache.view PageCache.lv PageCache.atPos
  rw [h]
  rfl

theorem ok_empty {c : Cfg} {V : Nat → Prop} {s : PageCache.State} (h : ∀ i, s.slots i = []) : PageCache.Ok c.env V s :=
  ⟨fun i k p hk => by rw [h i] at hk; cases hk⟩

/-- A change of the file under the cache, where there are no pages of `V`, or which keeps the bytes of `V`. -/
theorem Under.disk {c : Cfg} {V : Nat → Prop} {s : PageCache.State} (h : Under c V s) {d : Disk} (hd : ∀ pos, V pos → d.data pos = s.disk.data pos)
    (n : Nat) : Under c V { s with disk := d, region := n } ∧ ∀ pos, V pos → PageCache.view c.env { s with disk := d, region := n } pos = PageCache.view c.env s pos := by
  refine ⟨⟨⟨fun i k p hk => ?_⟩, h.empty⟩, fun pos hV => ?_⟩
  · obtain ⟨h1, h2, h3, h4⟩ := h.ok.slot i k p hk
    exact ⟨h1, h2, h3, fun hc j hj hV => by rw [h4 hc j hj hV, hd _ hV]⟩
  · unfold PageCache.view PageCache.lv
    simp only
    rw [hd pos hV]

theorem Under.mono {c : Cfg} {V V' : Nat → Prop} {s : PageCache.State} (h : Under c V s) (hV : ∀ pos, V' pos → V pos) : Under c V' s :=
  ⟨⟨fun i k p hk => by
    obtain ⟨h1, h2, h3, h4⟩ := h.ok.slot i k p hk
    exact ⟨h1, h2, h3, fun hc j hj hv => h4 hc j hj (hV _ hv)⟩⟩, h.empty⟩

theorem flushKeys_nil {e : PageCache.Env} {sel : Nat → Bool} {d : Disk} : PageCache.flushKeys e sel [] [] d = ([], d) := rfl

theorem flushSlots_empty {e : PageCache.Env} {sel : Nat → Bool} : ∀ (is : List Nat) {s : PageCache.State}, (∀ i, s.slots i = []) →
    (∀ i, (is.foldl (PageCache.flushSlot e sel) s).slots i = [])
  | [], _, h => h
  | i :: is, s, h => by
    refine flushSlots_empty is ?_
    intro j
    simp only [PageCache.flushSlot, PageCache.State.setSlot, h i, List.map_nil, flushKeys_nil]
    split
    · rfl
    · exact h j

/-- Flushing a region. -/
theorem flush_under {c : Cfg} (hc : c.Ok) {V : Nat → Prop} {s : PageCache.State} (h : Under c V s) (off size : Nat) :
    Under c V (PageCache.flush c.env s off size) ∧
    (∀ pos, V pos → PageCache.view c.env (PageCache.flush c.env s off size) pos = PageCache.view c.env s pos) ∧
    s.disk.len ≤ (PageCache.flush c.env s off size).disk.len ∧ (PageCache.flush c.env s off size).region = s.region ∧
    (∀ pos, V pos → off ≤ pos → pos < off + (if size = 0 then s.region - off else size) →
      (PageCache.flush c.env s off size).disk.data pos = PageCache.view c.env s pos) := by
  have hP0 : 0 < c.env.page := hc.1
  obtain ⟨h1, h2⟩ := PageCache.flushAll_spec hP0 (sel := fun k => decide (off - off % c.env.page ≤ k ∧
    k < align (off + (if size = 0 then s.region - off else size)) c.env.page)) h.ok
  refine ⟨⟨h1.ok, fun hu => flushSlots_empty _ (h.empty hu)⟩, h1.view, h1.len, h1.region, ?_⟩
  intro pos hV hl hu
  apply h2 pos hV
  rw [decide_eq_true_eq]
  have hb := PageCache.base_add c.env.page pos
  have hb' := PageCache.base_add c.env.page off
  have hdiv : off / c.env.page * c.env.page ≤ pos / c.env.page * c.env.page := Nat.mul_le_mul_right _ (Nat.div_le_div_right hl)
  refine ⟨by omega, ?_⟩
  have := PageCache.le_align hP0 (PageCache.base_mod c.env.page pos) (f := off + (if size = 0 then s.region - off else size)) (by omega)
  omega

theorem disk_write_data (d : Disk) (off : Nat) (b : Bytes) : (d.write off b).data = putAt d.data off b := rfl

/-- Reading whole blocks. -/
theorem blockRead_spec {c : Cfg} (hc : c.Ok) {d : Disk} {trunc off size : Nat} (hin : off + size ≤ trunc) (ht : trunc ≤ d.len) :
    blockRead c d trunc off size = some (bytes d.data off size) := by
  have hlt := Nat.mod_lt (off + size) hc.1
  have hle := Nat.mod_le off c.block
  unfold blockRead
  simp only
  split
  · generalize hel : (if off + size + (if (off + size) % c.block > 0 then c.block - (off + size) % c.block else 0) > trunc then
      trunc - (off + size) else (if (off + size) % c.block > 0 then c.block - (off + size) % c.block else 0)) = el
    have hel' : off + size + el ≤ trunc := by
      rw [← hel]
      generalize (if (off + size) % c.block > 0 then c.block - (off + size) % c.block else 0) = x
      split <;> omega
    rw [PageCache.read_ok (by omega)]
    simp only [Option.map_some, Option.some.injEq]
    apply List.ext_getElem?
    intro j
    by_cases hj : j < size
    · rw [PageCache.slice_get hj, PageCache.bytes_get (by omega), PageCache.bytes_get hj]
      congr 2; omega
    · rw [List.getElem?_eq_none (by unfold slice; rw [List.length_take]; omega), List.getElem?_eq_none (by rw [PageCache.bytes_length]; omega)]
  · rw [PageCache.read_ok (by omega)]

theorem readBlock_ok {c : Cfg} {d : Disk} {off : Nat} (h : off + c.block ≤ d.len) : readBlock c d off = (bytes d.data off c.block, true) := by
  unfold readBlock
  rw [PageCache.read_ok h]

theorem write_region {d : Disk} {lo : Nat} {pre data post : Bytes} (h1 : ∀ j, j < pre.length → pre[j]? = some (d.data (lo + j)))
    (h2 : ∀ j, j < post.length → post[j]? = some (d.data (lo + pre.length + data.length + j))) :
    (d.write lo (pre ++ data ++ post)).data = putAt d.data (lo + pre.length) data := by
  rw [disk_write_data, ← PageCache.putAt_append, ← PageCache.putAt_append]
  have hpre : putAt d.data lo pre = d.data := by
    funext pos
    unfold putAt
    split
    · rw [h1 _ (by omega)]
      simp only [Option.getD_some]
      congr 1; omega
    · rfl
  rw [hpre]
  funext pos
  conv => lhs; unfold putAt
  simp only [List.length_append]
  split
  · rw [h2 _ (by omega)]
    simp only [Option.getD_some]
    unfold putAt
    rw [if_neg (by omega)]
    congr 1; omega
  · rfl

/-- Writing whole blocks. -/
theorem blockWrite_spec {c : Cfg} (hc : c.Ok) {d : Disk} {off : Nat} {data : Bytes} (hd : 0 < data.length)
    (hin : align (off + data.length) c.block ≤ d.len) : (blockWrite c d off data).2 = true ∧
    (blockWrite c d off data).1.data = putAt d.data off data ∧ d.len ≤ (blockWrite c d off data).1.len := by
  have hlt := Nat.mod_lt (off + data.length) hc.1
  have hlt' := Nat.mod_lt off hc.1
  have hle := Nat.mod_le off c.block
  have hb := PageCache.base_add c.block off
  have hb' := PageCache.base_add c.block (off + data.length)
  have hwlen : ∀ (o : Nat) (b : Bytes), d.len ≤ (d.write o b).len := by
    intro o b
    unfold Disk.write
    simp only
    split <;> omega
  have hal : align (off + data.length) c.block = off + data.length +
      (if (off + data.length) % c.block > 0 then c.block - (off + data.length) % c.block else 0) := by
    unfold align
    split <;> rfl
  rw [hal] at hin
  unfold blockWrite
  simp only
  generalize hel : (if (off + data.length) % c.block > 0 then c.block - (off + data.length) % c.block else 0) = el at hin
  split
  · have hmod : off - off % c.block + c.block ≤ off + data.length + el := by
      have h1 : off - off % c.block < off + data.length := by omega
      have := PageCache.le_align hc.1 (k := off - off % c.block) (by
        rw [show off - off % c.block = off / c.block * c.block by omega]; exact PageCache.base_mod _ _) h1
      rw [hal, hel] at this
      exact this
    have hfirst : (if off % c.block > 0 then readBlock c d (off - off % c.block) else (bytes c.junk 0 c.block, true)).2 = true ∧
        (if off % c.block > 0 then readBlock c d (off - off % c.block) else (bytes c.junk 0 c.block, true)).1.take (off % c.block) =
          bytes d.data (off - off % c.block) (off % c.block) ∧
        (0 < off % c.block → (if off % c.block > 0 then readBlock c d (off - off % c.block) else (bytes c.junk 0 c.block, true)).1 =
          bytes d.data (off - off % c.block) c.block) := by
      by_cases h0 : off % c.block > 0
      · rw [if_pos h0, readBlock_ok (by omega)]
        refine ⟨rfl, ?_, fun _ => rfl⟩
        apply List.ext_getElem?
        intro j
        rw [List.getElem?_take]
        split
        · rename_i hj
          rw [PageCache.bytes_get (by omega), PageCache.bytes_get hj]
        · rw [List.getElem?_eq_none (by rw [PageCache.bytes_length]; omega)]
      · rw [if_neg h0]
        have h0 : off % c.block = 0 := by omega
        rw [h0]
        exact ⟨rfl, by simp [bytes], fun h => by omega⟩
    generalize (if off % c.block > 0 then readBlock c d (off - off % c.block) else (bytes c.junk 0 c.block, true)) = first at hfirst
    obtain ⟨hf1, hf2, hf3⟩ := hfirst
    have hlast : (if el > 0 then (if off % c.block = 0 ∨ off + data.length + el - c.block ≠ off - off % c.block then
          readBlock c d (off + data.length + el - c.block) else (first.1, true)) else (([] : Bytes), true)).2 = true ∧
        slice (if el > 0 then (if off % c.block = 0 ∨ off + data.length + el - c.block ≠ off - off % c.block then
          readBlock c d (off + data.length + el - c.block) else (first.1, true)) else (([] : Bytes), true)).1 ((off + data.length) % c.block) el =
          bytes d.data (off + data.length) el := by
      by_cases he : el > 0
      · rw [if_pos he]
        have hlb : off + data.length + el - c.block + (off + data.length) % c.block = off + data.length ∧
            (off + data.length) % c.block + el = c.block := by
          rw [← hel] at he ⊢
          split at he
          · rename_i hx
            rw [if_pos hx]
            omega
          · omega
        have hgen : slice (bytes d.data (off + data.length + el - c.block) c.block) ((off + data.length) % c.block) el =
            bytes d.data (off + data.length) el := by
          apply List.ext_getElem?
          intro j
          by_cases hj : j < el
          · rw [PageCache.slice_get hj, PageCache.bytes_get (by omega), PageCache.bytes_get hj]
            congr 2; omega
          · rw [List.getElem?_eq_none (by unfold slice; rw [List.length_take]; omega), List.getElem?_eq_none (by rw [PageCache.bytes_length]; omega)]
        by_cases hsame : off % c.block = 0 ∨ off + data.length + el - c.block ≠ off - off % c.block
        · rw [if_pos hsame, readBlock_ok (by omega)]
          exact ⟨rfl, hgen⟩
        · rw [if_neg hsame]
          simp only [not_or, ne_eq, Decidable.not_not] at hsame
          refine ⟨rfl, ?_⟩
          simp only
          rw [hf3 (by omega), ← hsame.2]
          exact hgen
      · rw [if_neg he]
        have : el = 0 := by omega
        subst this
        exact ⟨rfl, by simp [slice, bytes]⟩
    generalize (if el > 0 then (if off % c.block = 0 ∨ off + data.length + el - c.block ≠ off - off % c.block then
          readBlock c d (off + data.length + el - c.block) else (first.1, true)) else (([] : Bytes), true)) = last at hlast
    obtain ⟨hl1, hl2⟩ := hlast
    rw [hf1, hl1, hf2, hl2]
    refine ⟨rfl, ?_, hwlen _ _⟩
    rw [write_region]
    · rw [PageCache.bytes_length]
      congr 1; omega
    · intro j hj
      rw [PageCache.bytes_length] at hj
      exact PageCache.bytes_get hj
    · intro j hj
      rw [PageCache.bytes_length] at hj
      rw [PageCache.bytes_get hj, PageCache.bytes_length]
      congr 2; omega
  · exact ⟨rfl, rfl, hwlen _ _⟩

/-- What is under the head buffer after bytes are stored. -/
structure Stored (c : Cfg) (V : Nat → Prop) (s : PageCache.State) (off : Nat) (data : Bytes) (s' : PageCache.State) : Prop where
  under : Under c (withRange V off data.length) s'
  view : ∀ pos, withRange V off data.length pos → PageCache.view c.env s' pos = putAt (PageCache.view c.env s) off data pos
  len : s.disk.len ≤ s'.disk.len
  region : s.region ≤ s'.region

theorem stored_direct {c : Cfg} {V : Nat → Prop} {s : PageCache.State} (h : ∀ i, s.slots i = []) {off : Nat} {data : Bytes} {d : Disk}
    (hd : d.data = putAt s.disk.data off data) (hl : s.disk.len ≤ d.len) : Stored c V s off data { s with disk := d } := by
  refine ⟨⟨ok_empty h, fun _ => h⟩, fun pos _ => ?_, hl, Nat.le_refl _⟩
  rw [view_empty (s := { s with disk := d }) h]
  show d.data pos = _
  rw [hd]
  congr 1
  funext q
  rw [view_empty h]

theorem restWrite_spec {c : Cfg} (hc : c.Ok) {V : Nat → Prop} {s : PageCache.State} (h : Under c V s) {off : Nat} {data : Bytes} (hd : 0 < data.length)
    (hin : align (off + data.length) c.block ≤ s.disk.len) : (restWrite c s off data).2 = true ∧ Stored c V s off data (restWrite c s off data).1 := by
  unfold restWrite
  by_cases hb : c.block = 1
  · rw [if_pos hb]
    refine ⟨rfl, stored_direct (h.empty (fun hu => hu.2 hb)) rfl ?_⟩
    unfold Disk.write
    simp only
    split <;> omega
  · rw [if_neg hb]
    by_cases hcc : c.cached = true
    · rw [if_pos hcc]
      obtain ⟨⟨m, h1, h2, ⟨h3, h4, h5⟩, h6⟩, h7⟩ := PageCache.write_spec (e := c.env) hc.1 h.ok off data
      have hok := h7 hin
      have := h2 hok
      subst this
      rw [List.take_length] at h4
      exact ⟨hok, ⟨h3, fun hu => absurd ⟨hcc, hb⟩ hu⟩, h4, h5, by rw [h6]; exact Nat.le_max_left _ _⟩
    · rw [if_neg hcc]
      simp only
      obtain ⟨h1, h2, h3⟩ := blockWrite_spec hc hd hin
      exact ⟨h1, stored_direct (h.empty (fun hu => hcc hu.1)) h2 h3⟩

theorem seen_bytes {V : Nat → Prop} {v : Nat → UInt8} {off n : Nat} {b : Bytes} (hb : b = bytes v off n) : b.length = n ∧ Seen V v off b := by
  subst hb
  refine ⟨PageCache.bytes_length _ _ _, fun j hj _ => ?_⟩
  rw [PageCache.bytes_length] at hj
  exact PageCache.bytes_get hj

theorem restRead_spec {c : Cfg} (hc : c.Ok) {V : Nat → Prop} {s : PageCache.State} (h : Under c V s) {trunc off size : Nat}
    (ht : off + size ≤ trunc) (htl : trunc ≤ s.disk.len) (hin : c.uses → align (off + size) c.block ≤ s.disk.len) :
    (∃ b, (restRead c s trunc off size).2 = some b ∧ b.length = size ∧ Seen V (PageCache.view c.env s) off b) ∧
    Under c V (restRead c s trunc off size).1 ∧
    (∀ pos, V pos → PageCache.view c.env (restRead c s trunc off size).1 pos = PageCache.view c.env s pos) ∧
    s.disk.len ≤ (restRead c s trunc off size).1.disk.len ∧ (restRead c s trunc off size).1.region = s.region := by
  unfold restRead
  by_cases hb : c.block = 1
  · rw [if_pos hb]
    have hv : PageCache.view c.env s = s.disk.data := funext (view_empty (h.empty (fun hu => hu.2 hb)))
    refine ⟨⟨_, PageCache.read_ok (by omega), seen_bytes (by rw [hv])⟩, h, fun _ _ => rfl, Nat.le_refl _, rfl⟩
  · rw [if_neg hb]
    by_cases hcc : c.cached = true
    · rw [if_pos hcc]
      obtain ⟨h1, h2, h3⟩ := PageCache.read_spec (e := c.env) hc.1 h.ok off size
      have := h3 (hin ⟨hcc, hb⟩)
      cases hr : (PageCache.read c.env s off size).2 with
      | none => exact absurd hr this
      | some b => exact ⟨⟨b, rfl, h2 b hr⟩, ⟨h1.ok, fun hu => absurd ⟨hcc, hb⟩ hu⟩, h1.view, h1.len, h1.region⟩
    · rw [if_neg hcc]
      have hv : PageCache.view c.env s = s.disk.data := funext (view_empty (h.empty (fun hu => hcc hu.1)))
      exact ⟨⟨_, blockRead_spec hc ht htl, seen_bytes (by rw [hv])⟩, h, fun _ _ => rfl, Nat.le_refl _, rfl⟩

/-- The positions of a file that are specified and not in the head buffer. -/
def Body (f : File) (hs : Nat) (pos : Nat) : Prop := f.data pos ≠ none ∧ hs ≤ pos

/-- An open file and what it is for its user. -/
structure Shows (c : Cfg) (p : Pos) (f : File) : Prop where
  size : p.size = f.size
  inside : ∀ pos v, f.data pos = some v → pos < f.size
  le : p.size ≤ p.trunc
  len : p.trunc ≤ p.pc.disk.len
  under : Under c (Body f (headSize p)) p.pc
  head : ∀ pos v h, f.data pos = some v → p.head = some h → pos < h.length → h[pos]? = some v
  body : ∀ pos v, f.data pos = some v → headSize p ≤ pos → PageCache.view c.env p.pc pos = v

/-- A file open for writing. -/
structure Rel (c : Cfg) (p : Pos) (f : File) : Prop extends Shows c p f where
  writable : p.writable = true
  mod : p.trunc % c.block = 0
  region : p.trunc ≤ p.pc.region

theorem headSize_some {p : Pos} {h : Bytes} (hh : p.head = some h) : headSize p = h.length := by
  unfold headSize
  rw [hh]

theorem headSize_none {p : Pos} (hh : p.head = none) : headSize p = 0 := by
  unfold headSize
  rw [hh]

theorem align_one (n : Nat) : align n 1 = n := by
  unfold align
  rw [if_neg (by omega)]

theorem read_shows {c : Cfg} (hc : c.Ok) {p : Pos} {f : File} (h : Shows c p f) {off size : Nat} (hin : off + size ≤ f.size)
    (hal : c.uses → align (off + size) c.block ≤ p.pc.disk.len) :
    ∃ pc' b, readImpl c p off size = ({ p with pc := pc' }, some b) ∧ b.length = size ∧
      (∀ i v, i < size → f.data (off + i) = some v → b[i]? = some v) ∧
      Under c (Body f (headSize p)) pc' ∧ (∀ pos, Body f (headSize p) pos → PageCache.view c.env pc' pos = PageCache.view c.env p.pc pos) ∧
      p.pc.disk.len ≤ pc'.disk.len ∧ pc'.region = p.pc.region := by
  have hsz := h.size
  have hle := h.le
  have hlen := h.len
  unfold readImpl
  rw [if_neg (by omega)]
  simp only
  generalize hpre : (if off < headSize p then min size (headSize p - off) else 0) = pre
  generalize hfr : frontBytes p off pre = front
  generalize hoff : (if off < headSize p then headSize p else off) = off'
  have hpl : pre ≤ size ∧ (0 < pre → off + pre ≤ headSize p) := by
    rw [← hpre]; split <;> omega
  have hoff' : 0 < size - pre → off' = off + pre := by
    intro h0
    rw [← hoff, ← hpre] at *
    split <;> split at h0 <;> omega
  have hge : off' ≥ headSize p := by
    rw [← hoff]; split <;> omega
  have hflen : front.length = pre ∧ ∀ i v, i < pre → f.data (off + i) = some v → front[i]? = some v := by
    cases hh : p.head with
    | none =>
      unfold frontBytes at hfr
      rw [hh] at hfr
      have : pre = 0 := by
        rw [headSize_none hh] at hpl
        omega
      subst this
      rw [← hfr]
      exact ⟨rfl, fun i v hi => by omega⟩
    | some hb =>
      unfold frontBytes at hfr
      rw [hh] at hfr
      simp only at hfr
      rw [headSize_some hh] at hpl
      have hl : pre = 0 ∨ off + pre ≤ hb.length := by omega
      rw [← hfr]
      refine ⟨?_, fun i v hi hv => ?_⟩
      · unfold slice; rw [List.length_take, List.length_drop]; omega
      · rw [PageCache.slice_get hi]
        exact h.head _ v hb hv hh (by omega)
  by_cases h0 : size - pre < 1
  · rw [if_pos h0]
    have : pre = size := by omega
    subst this
    exact ⟨p.pc, front, rfl, hflen.1, hflen.2, h.under, fun _ _ => rfl, Nat.le_refl _, rfl⟩
  · rw [if_neg h0]
    have ho := hoff' (by omega)
    obtain ⟨⟨b, hb, hbl, hbs⟩, h2, h3, h4, h5⟩ := restRead_spec hc h.under (trunc := p.trunc) (off := off') (size := size - pre)
      (by omega) hlen (by rw [show off' + (size - pre) = off + size by omega]; exact hal)
    rw [hb]
    refine ⟨_, front ++ b, rfl, by rw [List.length_append]; omega, ?_, h2, h3, h4, h5⟩
    intro i v hi hv
    by_cases hip : i < pre
    · rw [List.getElem?_append_left (by omega)]
      exact hflen.2 i v hip hv
    · rw [List.getElem?_append_right (by omega), hflen.1]
      have hpos : off' + (i - pre) = off + i := by omega
      have := hbs (i - pre) (by omega) (by rw [hpos]; exact ⟨by rw [hv]; simp, by omega⟩)
      rw [this, hpos, h.body _ v hv (by omega)]

theorem Rel.room {c : Cfg} (hc : c.Ok) {p : Pos} {f : File} (h : Rel c p f) {n : Nat} (hn : n ≤ p.trunc) : align n c.block ≤ p.pc.disk.len :=
  Nat.le_trans (align_le_of hc.1 hn h.mod) h.len

theorem rel_read {c : Cfg} (hc : c.Ok) {p : Pos} {f : File} (h : Rel c p f) (off size : Nat) :
    ∃ out, File.Does f (.read off size) out f ∧ (step c p (.read off size)).2 = out ∧ Rel c (step c p (.read off size)).1 f := by
  by_cases hin : off + size ≤ f.size
  · obtain ⟨pc', b, h1, h2, h3, h4, h5, h6, h7⟩ := read_shows hc h.toShows hin
      (fun _ => h.room hc (by have := h.le; have := h.size; omega))
    simp only [step, read, h1]
    refine ⟨_, .read f off size b hin h2 h3, rfl, ⟨⟨h.size, h.inside, h.le, Nat.le_trans h.len h6, h4, h.head, ?_⟩, h.writable, h.mod, ?_⟩⟩
    · intro pos v hv hp
      have := h5 pos ⟨by rw [hv]; simp, hp⟩
      simp only
      rw [this]
      exact h.body pos v hv hp
    · simp only; rw [h7]; exact h.region
  · have : readImpl c p off size = (p, none) := by
      unfold readImpl
      rw [if_pos (by rw [h.size]; omega)]
    simp only [step, read, this]
    exact ⟨_, .readFails f off size (by omega), rfl, h⟩

theorem truncateDisk_data {d : Disk} {n pos : Nat} (h1 : pos < d.len) (h2 : pos < n) : (truncateDisk d n).data pos = d.data pos := by
  unfold truncateDisk
  simp only
  rw [if_pos ⟨h1, h2⟩]

theorem rel_allocate {c : Cfg} (hc : c.Ok) {p : Pos} {f : File} (h : Rel c p f) (n : Nat) :
    Rel c (allocate c p n) f ∧ n ≤ (allocate c p n).trunc ∧ (allocate c p n).size = p.size ∧ (allocate c p n).head = p.head := by
  unfold allocate
  by_cases hn : n ≤ p.trunc
  · rw [if_pos hn]
    exact ⟨h, hn, rfl, rfl⟩
  · rw [if_neg hn]
    simp only
    have hunit : 0 < c.unit := by unfold Cfg.unit; omega
    generalize ht : align (max n (c.scale p.trunc)) c.unit = t
    have htn : n ≤ t := by
      have := align_le (n := max n (c.scale p.trunc)) (a := c.unit)
      omega
    have hle := h.le
    have hlen := h.len
    have hsz := h.size
    obtain ⟨h1, h2⟩ := h.under.disk (d := truncateDisk p.pc.disk t) (fun pos hV => by
      cases hv : f.data pos with
      | none => exact absurd hv hV.1
      | some v =>
        have := h.inside pos v hv
        exact truncateDisk_data (by omega) (by omega)) t
    refine ⟨⟨⟨hsz, h.inside, by simp only; omega, Nat.le_refl _, h1, h.head, ?_⟩, h.writable, ?_, Nat.le_refl _⟩, htn, by trivial⟩
    · intro pos v hv hp
      rw [← h.body pos v hv hp]
      exact h2 pos ⟨by rw [hv]; simp, hp⟩
    · simp only
      rw [← ht]
      exact align_mul hunit hc.2

theorem writeImpl_rel {c : Cfg} (hc : c.Ok) {p : Pos} {f : File} (h : Rel c p f) {off : Nat} {data : Bytes} {n : Nat}
    (hn : n = max f.size (off + data.length)) (hal : align (off + data.length) c.block ≤ p.trunc) :
    (writeImpl c { p with size := n } off data).2 = true ∧ Rel c (writeImpl c { p with size := n } off data).1 (f.stored off data) := by
  have hle := h.le
  have hsz := h.size
  have hlen := h.len
  have hend := align_le (n := off + data.length) (a := c.block)
  unfold writeImpl
  have hhs : headSize { p with size := n } = headSize p := rfl
  simp only [hhs]
  generalize hpre : (if off < headSize p then min data.length (headSize p - off) else 0) = pre
  generalize hoff : (if off < headSize p then headSize p else off) = off'
  have hpl : pre ≤ data.length ∧ (0 < pre → off + pre ≤ headSize p) ∧ (off < headSize p → pre = min data.length (headSize p - off)) := by
    rw [← hpre]
    refine ⟨by split <;> omega, by split <;> omega, fun hx => by rw [if_pos hx]⟩
  have hoff' : 0 < data.length - pre → off' = off + pre := by
    intro h0
    rw [← hoff, ← hpre] at *
    split <;> split at h0 <;> omega
  have hge : off' ≥ headSize p := by
    rw [← hoff]; split <;> omega
  have hdl : (data.drop pre).length = data.length - pre := List.length_drop
  have hhead : ∀ h', p.head.map (fun h => overwrite h off (data.take pre)) = some h' →
      h'.length = headSize p ∧ ∀ pos v, (f.stored off data).data pos = some v → pos < h'.length → h'[pos]? = some v := by
    intro h' hh'
    cases hh : p.head with
    | none => rw [hh] at hh'; cases hh'
    | some hb =>
      rw [hh] at hh'
      simp only [Option.map_some, Option.some.injEq] at hh'
      have hhb := headSize_some hh
      by_cases ho : off ≤ hb.length
      · have hfit : off + (data.take pre).length ≤ hb.length := by
          rw [List.length_take]
          rcases Nat.eq_zero_or_pos pre with h0 | h0
          · omega
          · have := hpl.2.1 h0; omega
        have hl : h'.length = hb.length := by rw [← hh']; exact PageCache.overwrite_length hfit
        refine ⟨by rw [hl, hhb], fun pos v hv hp => ?_⟩
        rw [← hh', PageCache.overwrite_get hfit]
        unfold File.stored at hv
        simp only at hv
        have htl : (data.take pre).length = pre := by rw [List.length_take]; omega
        rw [htl]
        by_cases hin : off ≤ pos ∧ pos < off + data.length
        · rw [if_pos hin] at hv
          have hpp : pos < off + pre := by
            have := hpl.2.2 (by omega)
            omega
          rw [if_pos ⟨hin.1, hpp⟩, List.getElem?_take, if_pos (by omega)]
          exact hv
        · rw [if_neg hin] at hv
          rw [if_neg (by omega)]
          exact h.head pos v hb hv hh (by omega)
      · have hp0 : pre = 0 := by rw [← hpre, if_neg (by omega)]
        subst hp0
        have : h' = hb := by
          rw [← hh']
          unfold overwrite
          rw [List.take_of_length_le (by omega), List.take_zero, List.drop_eq_nil_of_le (by omega)]
          simp
        subst this
        refine ⟨hhb.symm, fun pos v hv hp => ?_⟩
        unfold File.stored at hv
        simp only at hv
        rw [if_neg (by omega)] at hv
        exact h.head pos v _ hv hh hp
  have hhsz : ∀ (q : Pos), q.head = p.head.map (fun h => overwrite h off (data.take pre)) → headSize q = headSize p := by
    intro q hq
    cases hh : p.head with
    | none => rw [hh] at hq; rw [headSize_none hh, headSize_none hq]
    | some hb =>
      cases hq' : q.head with
      | none => rw [hq', hh] at hq; cases hq
      | some h' =>
        rw [headSize_some hq']
        exact (hhead h' (by rw [← hq, hq'])).1
  have hinside : ∀ pos v, (f.stored off data).data pos = some v → pos < (f.stored off data).size := by
    intro pos v hv
    unfold File.stored at hv ⊢
    simp only at hv ⊢
    split at hv
    · omega
    · have := h.inside pos v hv; omega
  by_cases h0 : (data.drop pre).length < 1
  · rw [if_pos h0]
    have hp : pre = data.length := by omega
    refine ⟨rfl, ⟨⟨hn, hinside, by simp only; omega, hlen, ?_, ?_, ?_⟩, h.writable, h.mod, h.region⟩⟩
    · apply h.under.mono
      intro pos hV
      rw [hhsz _ rfl] at hV
      obtain ⟨hV1, hV2⟩ := hV
      refine ⟨?_, hV2⟩
      unfold File.stored at hV1
      simp only at hV1
      rw [if_neg (by have := hpl.2.1; omega)] at hV1
      exact hV1
    · intro pos v h' hv hh' hp'
      exact (hhead h' hh').2 pos v hv hp'
    · intro pos v hv hp'
      rw [hhsz _ rfl] at hp'
      unfold File.stored at hv
      simp only at hv
      rw [if_neg (by have := hpl.2.1; omega)] at hv
      exact h.body pos v hv hp'
  · rw [if_neg h0]
    have ho := hoff' (by omega)
    have hend' : off' + (data.drop pre).length = off + data.length := by omega
    obtain ⟨h1, h2⟩ := restWrite_spec hc h.under (off := off') (data := data.drop pre) (by omega)
      (by rw [hend']; omega)
    refine ⟨h1, ⟨⟨hn, hinside, by simp only; omega, Nat.le_trans hlen h2.len, ?_, ?_, ?_⟩, h.writable, h.mod, Nat.le_trans h.region h2.region⟩⟩
    · apply h2.under.mono
      intro pos hV
      rw [hhsz _ rfl] at hV
      obtain ⟨hV1, hV2⟩ := hV
      unfold File.stored at hV1
      simp only at hV1
      by_cases hin : off ≤ pos ∧ pos < off + data.length
      · right
        have : off' ≤ pos := by
          rw [← hoff]; split <;> omega
        omega
      · rw [if_neg hin] at hV1
        exact .inl ⟨hV1, hV2⟩
    · intro pos v h' hv hh' hp'
      exact (hhead h' hh').2 pos v hv hp'
    · intro pos v hv hp'
      rw [hhsz _ rfl] at hp'
      simp only
      have hin' : off ≤ pos ∧ pos < off + data.length → off' ≤ pos ∧ pos < off' + (data.drop pre).length := by
        intro hin
        have : off' ≤ pos := by
          rw [← hoff]; split <;> omega
        omega
      unfold File.stored at hv
      simp only at hv
      by_cases hin : off ≤ pos ∧ pos < off + data.length
      · rw [if_pos hin] at hv
        rw [h2.view pos (.inr (hin' hin))]
        unfold putAt
        rw [if_pos (hin' hin), List.getElem?_drop, show pre + (pos - off') = pos - off by omega, hv]
        rfl
      · rw [if_neg hin] at hv
        rw [h2.view pos (.inl ⟨by rw [hv]; simp, hp'⟩)]
        unfold putAt
        rw [if_neg (by omega)]
        exact h.body pos v hv hp'

theorem rel_open {c : Cfg} (hc : c.Ok) {d : Disk} {f : File} (hs : d.len = f.size) (hf : ∀ pos v, f.data pos = some v → pos < f.size ∧ d.data pos = v) :
    Rel c (open_ c d true) f := by
  have hunit : 0 < c.unit := by unfold Cfg.unit; omega
  have hal := align_le (n := max d.len c.initSize) (a := c.unit)
  have hemp : ∀ i, (open_ c d true).pc.slots i = [] := fun _ => rfl
  have hh : headSize (open_ c d true) = 0 := rfl
  refine ⟨⟨hs, fun pos v hv => (hf pos v hv).1, ?_, Nat.le_refl _, ⟨ok_empty hemp, fun _ => hemp⟩, ?_, ?_⟩, rfl, ?_, Nat.le_refl _⟩
  · show d.len ≤ align (max d.len c.initSize) c.unit
    omega
  · intro pos v h _ hh'
    cases hh'
  · intro pos v hv _
    rw [view_empty hemp]
    obtain ⟨h1, h2⟩ := hf pos v hv
    show (truncateDisk d (align (max d.len c.initSize) c.unit)).data pos = v
    rw [truncateDisk_data (by omega) (by omega)]
    exact h2
  · exact align_mul hunit hc.2

theorem writeHead_len (p : Pos) : p.pc.disk.len ≤ (writeHead p).len := by
  unfold writeHead
  cases p.head with
  | none => exact Nat.le_refl _
  | some h =>
    unfold Disk.write
    simp only
    split <;> omega

theorem writeHead_data {c : Cfg} {p : Pos} {f : File} (h : Shows c p f) {pos : Nat} {v : UInt8} (hv : f.data pos = some v) (hp : pos < headSize p) :
    (writeHead p).data pos = v := by
  unfold writeHead
  cases hh : p.head with
  | none => rw [headSize_none hh] at hp; omega
  | some b =>
    rw [headSize_some hh] at hp
    simp only
    rw [disk_write_data]
    unfold putAt
    rw [if_pos (by omega), Nat.sub_zero, h.head pos v b hv hh hp]
    rfl

theorem writeHead_other {p : Pos} {pos : Nat} (hp : headSize p ≤ pos) : (writeHead p).data pos = p.pc.disk.data pos := by
  unfold writeHead
  cases hh : p.head with
  | none => rfl
  | some b =>
    rw [headSize_some hh] at hp
    simp only
    rw [disk_write_data]
    unfold putAt
    rw [if_neg (by omega)]

/-- The file after the cache is flushed, if there is one. -/
def flushed (c : Cfg) (p : Pos) (off size : Nat) : Pos := { p with pc := if c.cached then PageCache.flush c.env p.pc off size else p.pc }

theorem rel_flushed {c : Cfg} (hc : c.Ok) {p : Pos} {f : File} (h : Rel c p f) (off size : Nat) :
    Rel c (flushed c p off size) f ∧ (flushed c p off size).pc.region = p.pc.region ∧
    (∀ pos v, f.data pos = some v → headSize p ≤ pos → off ≤ pos → pos < off + (if size = 0 then p.pc.region - off else size) →
      (flushed c p off size).pc.disk.data pos = v) := by
  unfold flushed
  by_cases hcc : c.cached = true
  · rw [if_pos hcc]
    obtain ⟨h1, h2, h3, h4, h5⟩ := flush_under hc h.under off size
    refine ⟨⟨⟨h.size, h.inside, h.le, Nat.le_trans h.len h3, h1, h.head, ?_⟩, h.writable, h.mod, by simp only; rw [h4]; exact h.region⟩, h4, ?_⟩
    · intro pos v hv hp
      rw [← h.body pos v hv hp]
      exact h2 pos ⟨by rw [hv]; simp, hp⟩
    · intro pos v hv hp hl hu
      simp only
      rw [h5 pos ⟨by rw [hv]; simp, hp⟩ hl hu]
      exact h.body pos v hv hp
  · rw [if_neg hcc]
    refine ⟨h, rfl, ?_⟩
    intro pos v hv hp _ _
    simp only
    rw [← view_empty (c := c) (h.under.empty (fun hu => hcc hu.1))]
    exact h.body pos v hv hp

/-- Closing leaves a file with the bytes. -/
theorem close_spec {c : Cfg} (hc : c.Ok) {p : Pos} {f : File} (h : Rel c p f) :
    (close c p).len = f.size ∧ ∀ pos v, f.data pos = some v → (close c p).data pos = v := by
  obtain ⟨h1, _, h3⟩ := rel_flushed hc h 0 0
  have hclose : close c p = truncateDisk (writeHead (flushed c p 0 0)) p.size := by
    unfold close
    rw [if_pos h.writable]
    rfl
  have hle := h.le
  have hsz := h.size
  have hreg := h.region
  rw [hclose]
  refine ⟨h.size, fun pos v hv => ?_⟩
  have hin := h.inside pos v hv
  have hl := writeHead_len (flushed c p 0 0)
  have hl' := h1.len
  have hl'' : (flushed c p 0 0).trunc = p.trunc := rfl
  rw [truncateDisk_data (by omega) (by omega)]
  by_cases hp : pos < headSize p
  · exact writeHead_data h1.toShows hv hp
  · rw [writeHead_other (show headSize (flushed c p 0 0) ≤ pos by show headSize p ≤ pos; omega)]
    exact h3 pos v hv (by omega) (by omega) (by rw [if_pos rfl]; omega)

theorem clear_empty (s : PageCache.State) (i : Nat) : (PageCache.clear s).slots i = [] := rfl

/-- The file after the cache is flushed and cleared, if there is one. -/
def cleared (c : Cfg) (p : Pos) (off size : Nat) : Pos :=
  { p with pc := if c.cached then PageCache.clear (PageCache.flush c.env p.pc off size) else p.pc }

theorem cleared_empty {c : Cfg} {p : Pos} {f : File} (h : Rel c p f) (off size : Nat) (i : Nat) : (cleared c p off size).pc.slots i = [] := by
  unfold cleared
  by_cases hcc : c.cached = true
  · rw [if_pos hcc]; rfl
  · rw [if_neg hcc]
    exact h.under.empty (fun hu => hcc hu.1) i

theorem cleared_disk (c : Cfg) (p : Pos) (off size : Nat) : (cleared c p off size).pc.disk = (flushed c p off size).pc.disk ∧
    (cleared c p off size).pc.region = (flushed c p off size).pc.region := by
  unfold cleared flushed
  split
  · exact ⟨rfl, rfl⟩
  · exact ⟨rfl, rfl⟩

theorem rel_truncate {c : Cfg} (hc : c.Ok) {p : Pos} {f : File} (h : Rel c p f) (n : Nat) :
    (truncate c p n).2 = true ∧ Rel c (truncate c p n).1 (f.resized n) := by
  obtain ⟨h1, h2, h3⟩ := rel_flushed hc h 0 n
  have hemp := cleared_empty h 0 n
  obtain ⟨hd, _⟩ := cleared_disk c p 0 n
  have hunit : 0 < c.unit := by unfold Cfg.unit; omega
  have hle := h.le
  have hsz := h.size
  have hreg := h.region
  have hl := h1.len
  have htr : (flushed c p 0 n).trunc = p.trunc := rfl
  generalize ht : align (max (max n 4096) c.initSize) c.unit = t
  have htn : n ≤ t := by
    have := align_le (n := max (max n 4096) c.initSize) (a := c.unit)
    omega
  have heq : truncate c p n = ({ cleared c p 0 n with
      pc := { (cleared c p 0 n).pc with disk := truncateDisk (cleared c p 0 n).pc.disk t, region := t }, size := n, trunc := t }, true) := by
    unfold truncate cleared
    rw [ht, h.writable]
    rfl
  rw [heq]
  have hemp' : ∀ i, ({ (cleared c p 0 n).pc with disk := truncateDisk (cleared c p 0 n).pc.disk t, region := t } : PageCache.State).slots i = [] := hemp
  refine ⟨rfl, ⟨⟨rfl, ?_, htn, Nat.le_refl _, ⟨ok_empty hemp', fun _ => hemp'⟩, ?_, ?_⟩, h.writable, ?_, Nat.le_refl _⟩⟩
  · intro pos v hv
    unfold File.resized at hv ⊢
    simp only at hv ⊢
    split at hv
    · assumption
    · cases hv
  · intro pos v hb hv hh hp
    unfold File.resized at hv
    simp only at hv
    split at hv
    · exact h.head pos v hb hv hh hp
    · cases hv
  · intro pos v hv hp
    unfold File.resized at hv
    simp only at hv
    split at hv
    · rename_i hpn
      have hin := h.inside pos v hv
      rw [view_empty hemp']
      show (truncateDisk (cleared c p 0 n).pc.disk t).data pos = v
      rw [hd, truncateDisk_data (by omega) (by omega)]
      refine h3 pos v hv hp (by omega) ?_
      split <;> omega
    · cases hv
  · simp only
    rw [← ht]
    exact align_mul hunit hc.2

theorem rel_fakely {c : Cfg} {p : Pos} {f : File} (h : Rel c p f) {n : Nat} (hn : n ≤ p.trunc) : Rel c { p with size := n } (f.resized n) := by
  refine ⟨⟨rfl, ?_, hn, h.len, h.under.mono ?_, ?_, ?_⟩, h.writable, h.mod, h.region⟩
  · intro pos v hv
    unfold File.resized at hv ⊢
    simp only at hv ⊢
    split at hv
    · assumption
    · cases hv
  · intro pos ⟨hV1, hV2⟩
    refine ⟨?_, hV2⟩
    unfold File.resized at hV1
    simp only at hV1
    split at hV1
    · exact hV1
    · exact absurd rfl hV1
  · intro pos v hb hv hh hp
    unfold File.resized at hv
    simp only at hv
    split at hv
    · exact h.head pos v hb hv hh hp
    · cases hv
  · intro pos v hv hp
    unfold File.resized at hv
    simp only at hv
    split at hv
    · exact h.body pos v hv hp
    · cases hv

theorem rel_synchronize {c : Cfg} (hc : c.Ok) {p : Pos} {f : File} (h : Rel c p f) (off size : Nat) :
    (synchronize c p off size).2 = true ∧ Rel c (synchronize c p off size).1 f := by
  obtain ⟨h1, h2, h3⟩ := rel_flushed hc h off size
  have heq : synchronize c p off size = ({ flushed c p off size with
      pc := { (flushed c p off size).pc with disk := truncateDisk (writeHead (flushed c p off size)) (align p.size c.block), region := align p.size c.block }
      trunc := align p.size c.block }, true) := by
    unfold synchronize flushed
    rw [h.writable]
    rfl
  rw [heq]
  have hal := align_le (n := p.size) (a := c.block)
  have hal' := align_le_of (t := p.trunc) hc.1 h.le h.mod
  have hle := h.le
  have hsz := h.size
  have hl := h1.len
  have htr : (flushed c p off size).trunc = p.trunc := rfl
  have hwl := writeHead_len (flushed c p off size)
  obtain ⟨h4, h5⟩ := h1.under.disk (d := truncateDisk (writeHead (flushed c p off size)) (align p.size c.block)) (fun pos hV => by
    cases hv : f.data pos with
    | none => exact absurd hv hV.1
    | some v =>
      have := h.inside pos v hv
      rw [truncateDisk_data (by omega) (by omega)]
      exact writeHead_other hV.2) (align p.size c.block)
  refine ⟨rfl, ⟨⟨h.size, h.inside, hal, Nat.le_refl _, h4, h.head, ?_⟩, h.writable, align_mod hc.1, Nat.le_refl _⟩⟩
  intro pos v hv hp
  rw [← h1.body pos v hv hp]
  exact h5 pos ⟨by rw [hv]; simp, hp⟩

theorem rel_setHead {c : Cfg} (hc : c.Ok) {p : Pos} {f : File} (h : Rel c p f) (n : Nat) : (setHead c p n).2 = true ∧ Rel c (setHead c p n).1 f := by
  obtain ⟨h1, h2, h3⟩ := rel_flushed hc h 0 0
  have hemp := cleared_empty h 0 0
  obtain ⟨hd, hr⟩ := cleared_disk c p 0 0
  have hle := h.le
  have hsz := h.size
  have hreg := h.region
  have hl := h1.len
  have htr : (flushed c p 0 0).trunc = p.trunc := rfl
  have hwh : writeHead (cleared c p 0 0) = writeHead (flushed c p 0 0) := by
    unfold writeHead
    rw [hd]
    rfl
  generalize hq : ({ cleared c p 0 0 with pc := { (cleared c p 0 0).pc with disk := writeHead (cleared c p 0 0) } } : Pos) = q
  have hqe : ∀ i, q.pc.slots i = [] := by rw [← hq]; exact hemp
  have hqd : q.pc.disk = writeHead (flushed c p 0 0) := by rw [← hq, ← hwh]
  have hqs : q.size = p.size ∧ q.trunc = p.trunc ∧ q.writable = p.writable := by rw [← hq]; exact ⟨rfl, rfl, rfl⟩
  have hqr : q.pc.region = p.pc.region := by rw [← hq]; exact hr.trans h2
  have hql : p.trunc ≤ q.pc.disk.len := by
    rw [hqd]
    have := writeHead_len (flushed c p 0 0)
    omega
  have hdata : ∀ pos v, f.data pos = some v → q.pc.disk.data pos = v := by
    intro pos v hv
    rw [hqd]
    by_cases hp : pos < headSize p
    · exact writeHead_data h1.toShows hv hp
    · have hin := h.inside pos v hv
      rw [writeHead_other (show headSize (flushed c p 0 0) ≤ pos by show headSize p ≤ pos; omega)]
      exact h3 pos v hv (by omega) (by omega) (by rw [if_pos rfl]; omega)
  have hgen : ∀ (hd' : Option Bytes), (∀ pos v hb, f.data pos = some v → hd' = some hb → pos < hb.length → hb[pos]? = some v) →
      Rel c { q with head := hd' } f := by
    intro hd' hh
    refine ⟨⟨hqs.1.trans h.size, h.inside, by simp only; omega, by simp only; omega, ⟨ok_empty hqe, fun _ => hqe⟩, hh, ?_⟩,
      hqs.2.2.trans h.writable, by simp only; rw [hqs.2.1]; exact h.mod, by simp only; omega⟩
    intro pos v hv _
    rw [view_empty hqe]
    exact hdata pos v hv
  have heq : setHead c p n = if n < 1 then ({ q with head := none }, true)
      else match q.pc.disk.read 0 (min (max 8 (align n c.block)) q.size) with
        | some b => ({ q with head := some (b ++ List.replicate (max 8 (align n c.block) - min (max 8 (align n c.block)) q.size) 0) }, true)
        | none => ({ q with head := some (List.replicate (max 8 (align n c.block)) 0) }, false) := by
    rw [← hq]; rfl
  rw [heq]
  split
  · exact ⟨rfl, hgen none (fun _ _ _ _ hx => by cases hx)⟩
  · rw [PageCache.read_ok (by omega)]
    refine ⟨rfl, hgen _ ?_⟩
    intro pos v hb hv hx hp
    simp only [Option.some.injEq] at hx
    have hin := h.inside pos v hv
    rw [← hx] at hp ⊢
    rw [List.length_append, List.length_replicate, PageCache.bytes_length] at hp
    rw [List.getElem?_append_left (by rw [PageCache.bytes_length]; omega), PageCache.bytes_get (by omega), Nat.zero_add, hdata pos v hv]

theorem rel_step {c : Cfg} (hc : c.Ok) {p : Pos} {f : File} (h : Rel c p f) (o : Op) :
    ∃ f', File.Does f o (step c p o).2 f' ∧ Rel c (step c p o).1 f' := by
  cases o with
  | read off size =>
    obtain ⟨out, h1, h2, h3⟩ := rel_read hc h off size
    exact ⟨f, by rw [h2]; exact h1, h3⟩
  | write off data =>
    obtain ⟨h1, h2, h3, _⟩ := rel_allocate hc h (align (off + data.length) c.block)
    have hsz := h.size
    obtain ⟨h4, h5⟩ := writeImpl_rel hc h1 (off := off) (data := data)
      (n := if off + data.length ≤ (allocate c p (align (off + data.length) c.block)).size then
        (allocate c p (align (off + data.length) c.block)).size else off + data.length) (by
        rw [h3]; split <;> omega) h2
    have heq : write c p off data = writeImpl c { allocate c p (align (off + data.length) c.block) with
        size := if off + data.length ≤ (allocate c p (align (off + data.length) c.block)).size then
        (allocate c p (align (off + data.length) c.block)).size else off + data.length } off data := by
      unfold write
      rw [h.writable]
      rfl
    refine ⟨f.stored off data, ?_, ?_⟩
    · simp only [step]
      rw [heq, h4]
      exact .write _ _ _
    · simp only [step]
      rw [heq]
      exact h5
  | append data =>
    obtain ⟨h1, h2, h3, _⟩ := rel_allocate hc h (align (p.size + data.length) c.block)
    have hsz := h.size
    obtain ⟨h4, h5⟩ := writeImpl_rel hc h1 (off := p.size) (data := data) (n := p.size + data.length) (by omega) h2
    have heq : append c p data = ((writeImpl c { allocate c p (align (p.size + data.length) c.block) with size := p.size + data.length } p.size data).1,
        if (writeImpl c { allocate c p (align (p.size + data.length) c.block) with size := p.size + data.length } p.size data).2 then some p.size else none) := by
      unfold append
      rw [h.writable]
      rfl
    refine ⟨f.stored p.size data, ?_, ?_⟩
    · simp only [step]
      rw [heq, h4, hsz]
      exact .append _ _
    · simp only [step]
      rw [heq]
      exact h5
  | truncate n =>
    obtain ⟨h1, h2⟩ := rel_truncate hc h n
    refine ⟨f.resized n, ?_, h2⟩
    simp only [step]
    rw [h1]
    exact .truncate _ _
  | truncateFakely n =>
    simp only [step, truncateFakely]
    by_cases hn : n > p.trunc
    · rw [if_pos hn]
      exact ⟨f, .truncateFails _ _ (by have := h.le; have := h.size; omega), h⟩
    · rw [if_neg hn]
      exact ⟨f.resized n, .truncateFakely _ _, rel_fakely h (by omega)⟩
  | synchronize off size =>
    obtain ⟨h1, h2⟩ := rel_synchronize hc h off size
    refine ⟨f, ?_, h2⟩
    simp only [step]
    rw [h1]
    exact .synchronize _ _ _
  | setHeadBuffer n =>
    obtain ⟨h1, h2⟩ := rel_setHead hc h n
    refine ⟨f, ?_, h2⟩
    simp only [step]
    rw [h1]
    exact .setHeadBuffer _ _
  | reopen =>
    obtain ⟨h1, h2⟩ := close_spec hc h
    exact ⟨f, .reopen _, rel_open hc h1 fun pos v hv => ⟨h.inside pos v hv, h2 pos v hv⟩⟩

theorem rel_run {c : Cfg} (hc : c.Ok) : ∀ (ops : List Op) {p : Pos} {f : File}, Rel c p f →
    ∃ f', File.DoesAll f ops (run c p ops).2 f' ∧ Rel c (run c p ops).1 f'
  | [], p, f, h => ⟨f, .nil f, h⟩
  | o :: os, p, f, h => by
    obtain ⟨f1, h1, h2⟩ := rel_step hc h o
    obtain ⟨f2, h3, h4⟩ := rel_run hc os h2
    exact ⟨f2, .cons h1 h3, h4⟩

theorem ofDisk_spec (d : Disk) : ∀ pos v, (File.ofDisk d).data pos = some v → pos < (File.ofDisk d).size ∧ d.data pos = v := by
  intro pos v hv
  unfold File.ofDisk at hv ⊢
  simp only at hv ⊢
  split at hv
  · rename_i hp
    cases hv
    exact ⟨hp, rfl⟩
  · cases hv

/-! ### C60 -/

/-- C60: for any block size, with or without a page cache and a head buffer, any history of operations on a file open for writing gives what it gives
on a plain file: reads give the bytes last written, an append gives the former size, and nothing fails but reading beyond the end and
extending by `TruncateFakely`. -/
theorem C60_history (c : Cfg) (hc : c.Ok) (d : Disk) (ops : List Op) :
    ∃ f, File.DoesAll (File.ofDisk d) ops (run c (open_ c d true) ops).2 f := by
  obtain ⟨f, h, _⟩ := rel_run hc ops (rel_open (c := c) hc rfl (ofDisk_spec d))
  exact ⟨f, h⟩

/-- C60: closing leaves a file of exactly that size with those bytes. -/
theorem C60_close (c : Cfg) (hc : c.Ok) (d : Disk) (ops : List Op) :
    ∃ f, File.DoesAll (File.ofDisk d) ops (run c (open_ c d true) ops).2 f ∧
      (close c (run c (open_ c d true) ops).1).len = f.size ∧
      ∀ pos v, f.data pos = some v → (close c (run c (open_ c d true) ops).1).data pos = v := by
  obtain ⟨f, h, h2⟩ := rel_run hc ops (rel_open (c := c) hc rfl (ofDisk_spec d))
  exact ⟨f, h, close_spec hc h2⟩

theorem shows_readOnly {c : Cfg} (d : Disk) : Shows c (open_ c d false) (File.ofDisk d) := by
  have hemp : ∀ i, (open_ c d false).pc.slots i = [] := fun _ => rfl
  refine ⟨rfl, fun pos v hv => (ofDisk_spec d pos v hv).1, Nat.le_refl _, Nat.le_refl _, ⟨ok_empty hemp, fun _ => hemp⟩, ?_, ?_⟩
  · intro pos v h _ hh
    cases hh
  · intro pos v hv _
    rw [view_empty hemp]
    exact (ofDisk_spec d pos v hv).2

/-- C60, in part: a file open for reading only, without a page cache, gives its bytes, and fails beyond its end. With the page cache this holds only for
regions that end in whole pages: see `C60_readonly_violated`. -/
theorem C60_readonly_partial (c : Cfg) (hc : c.Ok) (hcc : c.cached = false) (d : Disk) (off size : Nat) :
    (read c (open_ c d false) off size).2 = if off + size ≤ d.len then some ((List.range size).map fun i => d.data (off + i)) else none := by
  by_cases hin : off + size ≤ d.len
  · rw [if_pos hin]
    obtain ⟨pc', b, h1, h2, h3, _⟩ := read_shows hc (shows_readOnly (c := c) d) hin (fun hu => by rw [hu.1] at hcc; cases hcc)
    unfold read
    rw [h1]
    simp only [Option.some.injEq]
    apply List.ext_getElem?
    intro j
    by_cases hj : j < size
    · rw [List.getElem?_map, List.getElem?_range hj]
      exact h3 j _ hj (by unfold File.ofDisk; simp only; rw [if_pos (by omega)])
    · rw [List.getElem?_eq_none (by omega), List.getElem?_eq_none (by simp; omega)]
  · rw [if_neg hin]
    unfold read readImpl
    rw [if_pos (by show off + size > d.len; omega)]

/-- Blocks of 512 bytes and a page cache. -/
def exCfg : Cfg := ⟨512, true, 4096, fun n => n * 2, fun _ => 0xEE⟩

/-- C60 does not hold of a file open for reading only with a page cache: reading three bytes in the middle of a file of ten bytes fails, though reading
them from the beginning succeeds. -/
theorem C60_readonly_violated : ∃ (c : Cfg) (d : Disk), c.Ok ∧ d.len = 10 ∧ (read c (open_ c d false) 5 3).2 = none ∧
    (read c (open_ c d false) 0 8).2 = some [0, 1, 2, 3, 4, 5, 6, 7] :=
  ⟨exCfg, ⟨10, fun p => UInt8.ofNat p⟩, by unfold Cfg.Ok; decide, rfl, by decide +kernel, by decide +kernel⟩

/-! ### Examples -/

example : exCfg.Ok := by unfold Cfg.Ok; decide

def exOps : List Op :=
  [.write 3 [1, 2, 3], .append [4], .read 2 5, .setHeadBuffer 100, .write 510 [7, 8, 9, 10], .read 511 3, .synchronize 0 0, .truncate 512, .read 511 2,
   .truncateFakely 5, .reopen, .read 3 2, .read 0 6]

example : (run exCfg (open_ exCfg ⟨4, fun _ => 65⟩ true) exOps).2 =
    [.done, .at_ 6, .got [65, 1, 2, 3, 4], .done, .done, .got [8, 9, 10], .done, .done, .failed, .done, .done, .got [1, 2], .failed] := by
  decide +kernel

/-- The same without a cache, in blocks and by bytes. -/
example : (run { exCfg with cached := false } (open_ exCfg ⟨4, fun _ => 65⟩ true) exOps).2 =
    [.done, .at_ 6, .got [65, 1, 2, 3, 4], .done, .done, .got [8, 9, 10], .done, .done, .failed, .done, .done, .got [1, 2], .failed] := by
  decide +kernel

end Verif.Positional
