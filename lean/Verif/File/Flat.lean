import Verif.Codec.NumProps
import Verif.Dbm.ApiProps
import Verif.Dbm.Each
/-
Flat records (tkrzw_file_util.h 479-610, tkrzw_file_util.cc 1199-1430): the format of the files saved by the on-memory
databases and by the export functions, and the loops that write and load such files.
A file is the list of its bytes; reads succeed exactly within the file (I/O failures are not modelled).
-/
namespace Verif.Flat
open Verif Verif.Codec

/-- `FlatRecord::RecordType` (tkrzw_file_util.h 485-490). -/
inductive Kind where
  | normal | metadata
deriving DecidableEq, Repr

/-- `RECORD_MAGIC_NORMAL`, `RECORD_MAGIC_METADATA` (tkrzw_file_util.h 554-556). -/
def magic : Kind → UInt8
  | .normal => 0xFF
  | .metadata => 0xFE

/-- The bytes that `FlatRecord::Write` appends to the file (tkrzw_file_util.cc 1278-1298). -/
def record (k : Kind) (data : Bytes) : Bytes := magic k :: (writeVarNum data.length ++ data)

/-- `File::Read` (tkrzw_file.h): fails unless the whole range lies in the file. -/
def readAt (file : Bytes) (off size : Nat) : Option Bytes :=
  if off + size ≤ file.length then some ((file.drop off).take size) else none

/-- Parsing of the head of a record: magic byte and size (tkrzw_file_util.cc 1321-1339, repeated at 1366-1385 and
1403-1421). `none` is BROKEN_DATA_ERROR. Result: the kind, `value_size` and `step`. The buffer is never empty here. -/
def parseHead (buf : Bytes) : Option (Kind × Nat × Nat) :=
  match buf with
  | [] => none
  | m :: rest =>
    if m = 0xFF then (readVarNum rest).map fun x => (.normal, x.1, x.2)
    else if m = 0xFE then (readVarNum rest).map fun x => (.metadata, x.1, x.2)
    else none

/-- `FlatRecord::Read` (tkrzw_file_util.cc 1210-1258): kind and data of the record at an offset. -/
def readRecord (file : Bytes) (off : Nat) : Except Code (Kind × Bytes) :=
  let maxRead := min (file.length - off) (2 ^ 40)
  if maxRead ≤ 48 ∧ maxRead < 2 then .error .brokenData
  else
    match readAt file off (min maxRead 48) with
    | none => .error .infeasible
    | some buf =>
      match parseHead buf with
      | none => .error .brokenData
      | some (k, size, step) =>
        if size > maxRead then .error .brokenData
        else if size ≤ (buf.drop (1 + step)).length then .ok (k, (buf.drop (1 + step)).take size)
        else
          match readAt file (off + (1 + step)) size with
          | none => .error .infeasible
          | some d => .ok (k, d)

/-- `FlatRecordReader` (tkrzw_file_util.h 573-600). `data` are the `data_size_` valid bytes of `buffer_`. -/
structure Reader where
  offset : Nat
  bufSize : Nat
  data : Bytes
  index : Nat
deriving DecidableEq, Repr

/-- The constructor (tkrzw_file_util.cc 1300-1309). -/
def Reader.new (bufferSize : Nat) : Reader :=
  ⟨0, if bufferSize < 1 then 32768 else max bufferSize 8, [], 0⟩

/-- The tail of `FlatRecordReader::Read` when a record is larger than the buffer (tkrzw_file_util.cc 1395-1430): the
buffer is enlarged and the record is read again. -/
def Reader.readBig (file : Bytes) (r : Reader) (size got : Nat) : Reader × Except Code (Kind × Bytes) :=
  let r := { r with data := [], index := 0, bufSize := r.bufSize + (size - got) }
  match readAt file r.offset r.bufSize with
  | none => (r, .error .infeasible)
  | some buf =>
    match parseHead buf with
    | none => (r, .error .brokenData)
    | some (k, size, step) =>
      let rest := buf.drop (1 + step)
      if rest.length < size then (r, .error .brokenData)
      else ({ r with offset := r.offset + (1 + step + size) }, .ok (k, rest.take size))

/-- The part of `FlatRecordReader::Read` that refills the buffer (tkrzw_file_util.cc 1347-1394). -/
def Reader.readRefill (file : Bytes) (r : Reader) : Reader × Except Code (Kind × Bytes) :=
  if file.length ≤ r.offset + 2 then (r, .error .notFound)
  else
    let n := min r.bufSize (file.length - r.offset)
    if n < 2 then (r, .error .notFound)
    else
      match readAt file r.offset n with
      | none => (r, .error .infeasible)
      | some buf =>
        let r := { r with data := buf }
        match parseHead buf with
        | none => (r, .error .brokenData)
        | some (k, size, step) =>
          let rest := buf.drop (1 + step)
          if size ≤ rest.length then
            ({ r with index := 1 + step + size, offset := r.offset + (1 + step + size) }, .ok (k, rest.take size))
          else r.readBig file size rest.length

/-- `FlatRecordReader::Read` (tkrzw_file_util.cc 1315-1430). -/
def Reader.read (file : Bytes) (r : Reader) : Reader × Except Code (Kind × Bytes) :=
  if r.index + 9 ≤ r.data.length then
    match parseHead (r.data.drop r.index) with
    | none => (r, .error .brokenData)
    | some (k, size, step) =>
      let rest := r.data.drop (r.index + (1 + step))
      if size ≤ rest.length then
        ({ r with index := r.index + (1 + step + size), offset := r.offset + (1 + step + size) },
          .ok (k, rest.take size))
      else r.readRefill file
  else r.readRefill file

/-- Reading a whole file with one reader, as far as it goes (`fuel` bounds the number of calls). -/
def readAll (file : Bytes) : Nat → Reader → List (Kind × Bytes) × Option Code
  | 0, _ => ([], none)
  | fuel + 1, r =>
    match r.read file with
    | (_, .error c) => ([], some c)
    | (r, .ok x) =>
      let y := readAll file fuel r
      (x :: y.1, y.2)

/-- `ImportDBMFromFlatRecords` (tkrzw_dbm_common_impl.cc 407-445). `setf` is the call that stores a pair. `none` would
be a loop that does not end within the fuel. -/
def importLoop {σ : Type} (file : Bytes) (setf : σ → Bytes → Bytes → σ × Code) :
    Nat → Reader → σ → Option (σ × Code)
  | 0, _, _ => none
  | fuel + 1, r, s =>
    match r.read file with
    | (_, .error c) => some (s, if c ≠ .notFound then c else .success)
    | (r, .ok (.metadata, _)) => importLoop file setf fuel r s
    | (r, .ok (.normal, key)) =>
      match r.read file with
      | (_, .error c) => some (s, if c ≠ .notFound then c else .brokenData)
      | (_, .ok (.metadata, _)) => some (s, .brokenData)
      | (r, .ok (.normal, value)) =>
        match setf s key value with
        | (s, .success) => importLoop file setf fuel r s
        | (s, c) => some (s, c)

/-- The import of a whole file, with the default buffer of the reader. Every successful read consumes at least two
bytes, so this fuel suffices (this is part of what the theorems say: the result is never `none`). -/
def importFile {σ : Type} (file : Bytes) (setf : σ → Bytes → Bytes → σ × Code) (s : σ) : Option (σ × Code) :=
  importLoop file setf (file.length + 1) (Reader.new 0) s

/-- `dbm->Set(key, value)` as a storing call for the import. -/
def dbmSet {σ : Type} (D : DbmImpl σ) (s : σ) (k v : Bytes) : σ × Code :=
  let x := Api.set D s k v true
  (x.1, x.2.1)

/-- The file written by `ExportDBMToFlatRecords` (tkrzw_dbm_common_impl.cc 380-404) when `ProcessEach` shows the
records in the order of the list. -/
def exportFile (recs : List (Bytes × Bytes)) : Bytes :=
  recs.flatMap fun x => record .normal x.1 ++ record .normal x.2

/-- The file written by `ExportRecords` of the on-memory databases (e.g. tkrzw_dbm_tiny.cc 589-628): a metadata
record, then the records. -/
def saveFile (info : Bytes) (recs : List (Bytes × Bytes)) : Bytes := record .metadata info ++ exportFile recs

/-- `ExportDBMKeysToFlatRecords` (tkrzw_dbm_common_impl.cc 447-472). -/
def exportKeys (recs : List (Bytes × Bytes)) : Bytes := recs.flatMap fun x => record .normal x.1

/-! Lemmas -/

/-- The concatenation of records. -/
def records (l : List (Kind × Bytes)) : Bytes := l.flatMap fun x => record x.1 x.2

theorem records_cons (x l) : records (x :: l) = record x.1 x.2 ++ records l := by simp [records]

theorem record_length (k d) : (record k d).length = 1 + sizeVarNum d.length + d.length := by
  simp [record, writeVarNum_length]; omega

theorem record_length_ge (k d) : 2 ≤ (record k d).length := by
  have := sizeVarNum_pos d.length
  rw [record_length]; omega

theorem sizeVarNum_le7 {n : Nat} (h : n < 2 ^ 49) : sizeVarNum n ≤ 7 :=
  ((C34_varnum_size n (by omega)).2.2.2 7 (by omega)).2 (by simpa using h)

/-- Parsing the head of a buffer that is a prefix of a file position where a record begins. -/
theorem parseHead_prefix {k d rest buf} (hd : d.length < 2 ^ 49) (hp : buf <+: record k d ++ rest)
    (hl : 1 + sizeVarNum d.length ≤ buf.length) :
    parseHead buf = some (k, d.length, sizeVarNum d.length) ∧
      buf.drop (1 + sizeVarNum d.length) <+: d ++ rest := by
  obtain ⟨t, ht⟩ := hp
  have hw : (writeVarNum d.length).length = sizeVarNum d.length := writeVarNum_length _
  cases buf with
  | nil => simp at hl
  | cons m b =>
    simp only [record, List.cons_append, List.cons.injEq, List.append_assoc] at ht
    obtain ⟨hm, ht⟩ := ht
    simp only [List.length_cons] at hl
    have hb : writeVarNum d.length <+: b := by
      apply List.prefix_of_prefix_length_le (l₃ := b ++ t)
      · rw [ht]; exact List.prefix_append _ _
      · exact List.prefix_append _ _
      · omega
    obtain ⟨b', rfl⟩ := hb
    have hr := readVarNum_write (n := d.length) (by omega) b'
    refine ⟨?_, ?_⟩
    · subst hm
      cases k <;> simp [parseHead, magic, hr]
    · rw [Nat.add_comm 1, List.drop_succ_cons, ← hw, List.drop_left]
      rw [List.append_assoc, List.append_cancel_left_eq] at ht
      exact ⟨t, ht⟩

/-- The state of a reader positioned before the records `l` of a file. -/
structure Pos (file : Bytes) (r : Reader) (rest : Bytes) : Prop where
  offs : r.offset ≤ file.length
  pos : file.drop r.offset = rest
  big : 8 ≤ r.bufSize

/-- Same, and the buffer holds what follows in the file. -/
structure At (file : Bytes) (r : Reader) (rest : Bytes) : Prop extends Pos file r rest where
  idx : r.data = [] ∨ (r.index ≤ r.data.length ∧ r.data.drop r.index <+: rest)

theorem At.new (file : Bytes) (b : Nat) : At file (Reader.new b) file := by
  refine ⟨⟨by simp [Reader.new], rfl, ?_⟩, .inl rfl⟩
  simp only [Reader.new]; split <;> omega

theorem take_prefix_of_prefix {d rest x : Bytes} (h : x <+: d ++ rest) (hl : d.length ≤ x.length) :
    x.take d.length = d := by
  obtain ⟨t, ht⟩ := h
  have := congrArg (List.take d.length) ht
  rw [List.take_append_of_le_length hl, List.take_left] at this
  exact this

theorem drop_prefix_of_prefix {d rest x : Bytes} (h : x <+: d ++ rest) (hl : d.length ≤ x.length) :
    x.drop d.length <+: rest := by
  obtain ⟨t, ht⟩ := h
  have := congrArg (List.drop d.length) ht
  rw [List.drop_append_of_le_length hl, List.drop_left] at this
  exact ⟨t, this⟩

theorem Pos.drop {file r k d rest} (h : Pos file r (record k d ++ rest)) :
    r.offset + (record k d).length ≤ file.length ∧ file.drop (r.offset + (record k d).length) = rest := by
  have hl := congrArg List.length h.pos
  simp only [List.length_drop, List.length_append] at hl
  have := h.offs
  have := record_length_ge k d
  refine ⟨by omega, ?_⟩
  rw [← List.drop_drop, h.pos, List.drop_left]

theorem readBig_spec {file r k d rest} (h : Pos file r (record k d ++ rest)) (hd : d.length < 2 ^ 49)
    (n : Nat) (hn : n < d.length) (hb : r.bufSize = 1 + sizeVarNum d.length + n) :
    (r.readBig file d.length n).2 = .ok (k, d) ∧ At file (r.readBig file d.length n).1 rest := by
  have hrl := record_length k d
  obtain ⟨h1, h2⟩ := h.drop
  have e1 : r.bufSize + (d.length - n) = (record k d).length := by omega
  have e2 : readAt file r.offset (r.bufSize + (d.length - n)) = some (record k d) := by
    rw [e1, readAt, if_pos h1, h.pos, List.take_left]
  have hp := parseHead_prefix (k := k) (d := d) (rest := []) (buf := record k d) hd
    (by rw [List.append_nil]; exact List.prefix_refl _) (by omega)
  have e3 : (record k d).drop (1 + sizeVarNum d.length) = d := by
    have := hp.2
    rw [List.append_nil] at this
    exact List.IsPrefix.eq_of_length this (by simp; omega)
  simp only [Reader.readBig, e2, hp.1, e3, Nat.lt_irrefl, if_false, List.take_length]
  refine ⟨trivial, ?_⟩
  refine ⟨⟨?_, ?_, ?_⟩, .inl rfl⟩
  · rw [hrl] at h1; exact h1
  · rw [hrl] at h2; exact h2
  · have := h.big; show 8 ≤ r.bufSize + (d.length - n); omega

theorem readRefill_spec {file r k d rest} (h : Pos file r (record k d ++ rest)) (hd : d.length < 2 ^ 49)
    (h3 : 3 ≤ (record k d ++ rest).length) :
    (r.readRefill file).2 = .ok (k, d) ∧ At file (r.readRefill file).1 rest := by
  have hrl := record_length k d
  have hs := sizeVarNum_le7 hd
  have hs1 := sizeVarNum_pos d.length
  obtain ⟨h1, h2⟩ := h.drop
  have hl := congrArg List.length h.pos
  simp only [List.length_drop, List.length_append] at hl h3
  have hbig := h.big
  have ho := h.offs
  have hn : r.offset + min r.bufSize (file.length - r.offset) ≤ file.length := by omega
  have ha : readAt file r.offset (min r.bufSize (file.length - r.offset)) =
      some ((file.drop r.offset).take (min r.bufSize (file.length - r.offset))) := by
    rw [readAt, if_pos hn]
  have hm : ((file.drop r.offset).take (min r.bufSize (file.length - r.offset))).length =
      min r.bufSize (file.length - r.offset) := by
    rw [List.length_take, List.length_drop]; omega
  have hpre : (file.drop r.offset).take (min r.bufSize (file.length - r.offset)) <+: record k d ++ rest := by
    rw [h.pos]; exact List.take_prefix _ _
  generalize hN : min r.bufSize (file.length - r.offset) = n at *
  generalize (file.drop r.offset).take n = buf at *
  have hp := parseHead_prefix hd hpre (by omega)
  have hc : ¬ file.length ≤ r.offset + 2 := by omega
  have hc2 : ¬ n < 2 := by omega
  simp only [Reader.readRefill, hc, if_false, hN, hc2, ha, hp.1]
  by_cases hf : d.length ≤ (buf.drop (1 + sizeVarNum d.length)).length
  · simp only [hf, if_true]
    refine ⟨by rw [take_prefix_of_prefix hp.2 hf], ?_⟩
    rw [hrl] at h1 h2
    refine ⟨⟨h1, h2, hbig⟩, .inr ⟨?_, ?_⟩⟩
    · simp only [List.length_drop] at hf; show 1 + sizeVarNum d.length + d.length ≤ buf.length; omega
    · show buf.drop (1 + sizeVarNum d.length + d.length) <+: rest
      rw [← List.drop_drop]
      exact drop_prefix_of_prefix hp.2 hf
  · simp only [hf, if_false]
    have hb2 : (buf.drop (1 + sizeVarNum d.length)).length = n - (1 + sizeVarNum d.length) := by
      rw [List.length_drop, hm]
    rw [hb2] at hf ⊢
    have : n = r.bufSize := by omega
    have ha' : Pos file { r with data := buf } (record k d ++ rest) := ⟨ho, h.pos, hbig⟩
    exact readBig_spec ha' hd _ (by omega) (by show r.bufSize = _; omega)

theorem read_spec {file r k d rest} (h : At file r (record k d ++ rest)) (hd : d.length < 2 ^ 49)
    (h3 : 3 ≤ (record k d ++ rest).length) :
    (r.read file).2 = .ok (k, d) ∧ At file (r.read file).1 rest := by
  have hrl := record_length k d
  have hs := sizeVarNum_le7 hd
  obtain ⟨h1, h2⟩ := h.toPos.drop
  simp only [Reader.read]
  by_cases hc : r.index + 9 ≤ r.data.length
  · simp only [hc, if_true]
    rcases h.idx with hi | ⟨hi, hp⟩
    · rw [hi] at hc; simp at hc
    · have hq := parseHead_prefix hd hp (by rw [List.length_drop]; omega)
      simp only [hq.1]
      rw [List.drop_drop] at hq
      by_cases hf : d.length ≤ (r.data.drop (r.index + (1 + sizeVarNum d.length))).length
      · simp only [hf, if_true]
        refine ⟨by rw [take_prefix_of_prefix hq.2 hf], ?_⟩
        rw [hrl] at h1 h2
        refine ⟨⟨h1, h2, h.big⟩, .inr ⟨?_, ?_⟩⟩
        · simp only [List.length_drop] at hf
          show r.index + (1 + sizeVarNum d.length + d.length) ≤ r.data.length; omega
        · show r.data.drop (r.index + (1 + sizeVarNum d.length + d.length)) <+: rest
          rw [← Nat.add_assoc, ← List.drop_drop]
          exact drop_prefix_of_prefix hq.2 hf
      · simp only [hf, if_false]
        exact readRefill_spec h.toPos hd h3
  · simp only [hc, if_false]
    exact readRefill_spec h.toPos hd h3

/-- With at most two bytes left the reader reports the end. -/
theorem read_end {file r rest} (h : At file r rest) (hr : rest.length ≤ 2) :
    (r.read file).2 = .error .notFound := by
  have hl := congrArg List.length h.pos
  simp only [List.length_drop] at hl
  have : (r.readRefill file).2 = .error .notFound := by
    simp only [Reader.readRefill]
    rw [if_pos (by omega)]
  simp only [Reader.read]
  by_cases hc : r.index + 9 ≤ r.data.length
  · exfalso
    rcases h.idx with hi | ⟨hi, hp⟩
    · rw [hi] at hc; simp at hc
    · have := hp.length_le
      rw [List.length_drop] at this; omega
  · simp only [hc, if_false, this]

/-- SPECIFICATION: the number of records a reader can see: the last record is lost if it is empty. -/
def visible (l : List (Kind × Bytes)) : List (Kind × Bytes) :=
  match l.getLast? with
  | some (_, []) => l.dropLast
  | _ => l

theorem visible_cons2 (x y l) : visible (x :: y :: l) = x :: visible (y :: l) := by
  simp only [visible, List.getLast?_cons_cons, List.dropLast_cons₂]
  split <;> rfl

theorem records_length_ge (l) : 2 * l.length ≤ (records l).length := by
  induction l with
  | nil => simp
  | cons x l ih =>
    rw [records_cons, List.length_append]
    have := record_length_ge x.1 x.2
    simp only [List.length_cons]; omega

theorem record_nonempty_length {k d} (h : d ≠ []) : 3 ≤ (record k d).length := by
  have := sizeVarNum_pos d.length
  have := List.length_pos_iff.mpr h
  rw [record_length]; omega

theorem readAll_spec {file} (l : List (Kind × Bytes)) (hd : ∀ x ∈ l, x.2.length < 2 ^ 49) :
    ∀ (r : Reader) (fuel : Nat), At file r (records l) → l.length < fuel →
      readAll file fuel r = (visible l, some .notFound) := by
  induction l with
  | nil =>
    intro r fuel h hf
    obtain ⟨f, rfl⟩ : ∃ f, fuel = f + 1 := ⟨fuel - 1, by omega⟩
    have := read_end h (by simp [records])
    simp only [readAll]
    rcases he : r.read file with ⟨r', x⟩
    rw [he] at this
    dsimp only at this
    subst this
    rfl
  | cons x l ih =>
    intro r fuel h hf
    obtain ⟨f, rfl⟩ : ∃ f, fuel = f + 1 := ⟨fuel - 1, by omega⟩
    simp only [List.length_cons] at hf
    rw [records_cons] at h
    by_cases h3 : 3 ≤ (record x.1 x.2 ++ records l).length
    · have := read_spec h (hd x (by simp)) h3
      simp only [readAll]
      rcases he : r.read file with ⟨r', y⟩
      rw [he] at this
      dsimp only at this
      obtain ⟨rfl, h'⟩ := this
      dsimp only
      rw [ih (fun z hz => hd z (by simp [hz])) r' f h' (by omega)]
      cases l with
      | nil =>
        obtain ⟨k, d⟩ := x
        cases d with
        | nil =>
          exfalso
          cases k <;> exact absurd h3 (by decide)
        | cons a d => rfl
      | cons y l => rw [visible_cons2]
    · have hl := records_length_ge l
      rw [List.length_append] at h3
      have h2 := record_length_ge x.1 x.2
      have : l = [] := by
        cases l with
        | nil => rfl
        | cons _ _ => simp at hl; omega
      subst this
      have := read_end h (by rw [List.length_append]; omega)
      simp only [readAll]
      rcases he : r.read file with ⟨r', y⟩
      rw [he] at this
      dsimp only at this
      subst this
      have : x.2 = [] := by
        by_cases h : x.2 = []
        · exact h
        · have := record_nonempty_length (k := x.1) h; omega
      obtain ⟨k, d⟩ := x
      dsimp only at this
      subst this
      rfl

end Verif.Flat
