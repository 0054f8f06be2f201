import Verif.Hash.Props
import Verif.Prelude.OrdMap
/-
Traversal of HashDBM: `ProcessFirst`, `ProcessEach` and the iterator, on the bytes of the file.
-/
namespace Verif.Hash
open Verif.Codec

/-- The records of a bucket chain (tkrzw_dbm_hash.cc 476-484, 554-562, 1852-1860). `none`: a broken record, or a chain
longer than the fuel. -/
def walk (rd : Reader) : (fuel cur : Nat) → Option (List RecR)
  | 0, cur => if cur = 0 then some [] else none
  | fuel + 1, cur =>
    if cur = 0 then some []
    else match rd.record cur with
      | none => none
      | some r => (walk rd fuel r.child).map (r :: ·)

/-- The records of a bucket (tkrzw_dbm_hash.cc 470-474, 546-550, 1846-1850). -/
def bucketRecs (rd : Reader) (i : Nat) : Option (List RecR) :=
  match rd.bucket i with
  | none => none
  | some top => walk rd rd.size top

/-- The first key with a live record in a chain: the loop of `ProcessFirst` (tkrzw_dbm_hash.cc 475-500) with the set
`dead_keys`. -/
def firstKey (dead : List Bytes) : List RecR → Option Bytes
  | [] => none
  | r :: rs =>
    if r.key ∈ dead then firstKey dead rs
    else match r.op with
      | .set => some r.key
      | .add => some r.key
      | .remove => firstKey (r.key :: dead) rs
      | .void => firstKey dead rs

/-- `std::set<std::string>::emplace`. -/
def setIns (k : Bytes) : List Bytes → List Bytes
  | [] => [k]
  | x :: xs => if bytesLt k x then k :: x :: xs else if bytesLt x k then x :: setIns k xs else x :: xs

/-- The records `ProcessEach` takes from a chain (tkrzw_dbm_hash.cc 551-590); `seen` is the union of the sets `keys` and
`dead_keys`. -/
def eachLive (seen : List Bytes) : List RecR → List RecR
  | [] => []
  | r :: rs =>
    if r.key ∈ seen then eachLive seen rs
    else match r.op with
      | .set => r :: eachLive (r.key :: seen) rs
      | .add => r :: eachLive (r.key :: seen) rs
      | .remove => eachLive (r.key :: seen) rs
      | .void => eachLive seen rs

/-- The keys `ReadNextBucketRecords` takes from a chain (tkrzw_dbm_hash.cc 1851-1876). -/
def iterKeys (dead keys : List Bytes) : List RecR → List Bytes
  | [] => keys
  | r :: rs =>
    if r.key ∈ dead then iterKeys dead keys rs
    else match r.op with
      | .set => iterKeys dead (setIns r.key keys) rs
      | .add => iterKeys dead (setIns r.key keys) rs
      | .remove => iterKeys (r.key :: dead) keys rs
      | .void => iterKeys dead keys rs

/-- A processor given by its `ProcessFull`, as `ProcessImpl` calls it. -/
def fullOnly {τ : Type} (p : Bytes → Action × τ) (d : τ) : ProcR τ
  | none => (.noop, d)
  | some v => p v

/-- `ProcessFirst` (tkrzw_dbm_hash.cc 450-501) from bucket `i` on; the result `none` is NOT_FOUND_ERROR (or a failure, which
sets `bad`). `fuel`: the number of remaining buckets. -/
def firstFrom {τ : Type} (e : Env) (s : State) (w : Bool) (p : Bytes → Bytes → Action × τ) : (fuel i : Nat) → State × Option τ
  | 0, _ => (s, none)
  | fuel + 1, i =>
    match bucketRecs (fileReader s.cfg s.file metaMinReadSize) i with
    | none => (s.fail, none)
    | some rs =>
      match firstKey [] rs with
      | some k => processImpl e metaMinReadSize s k i w (fullOnly (fun v => ((p k v).1, some (p k v).2)) none)
      | none => firstFrom e s w p fuel (i + 1)

def processFirst {τ : Type} (e : Env) (s : State) (w : Bool) (p : Bytes → Bytes → Action × τ) : State × Option τ :=
  firstFrom e s w p s.cfg.nb 0

/-- The linear pass of a read-only `ProcessEach` in the in-place mode (tkrzw_dbm_hash.cc 517-542). `r` is the state of the
processor. -/
def eachScan {ρ : Type} (rd : Reader) (p : Bytes → ρ → Bytes → Action × ρ) : (fuel off : Nat) → ρ → Option ρ
  | 0, off, r => if off < rd.size then none else some r
  | fuel + 1, off, r =>
    if off < rd.size then
      match rd.record off with
      | none => none
      | some x =>
        if x.op.isSet then
          match x.value with
          | none => none
          | some v => eachScan rd p fuel (off + x.size) (p x.key r v).2
        else eachScan rd p fuel (off + x.size) r
    else some r

/-- `ProcessFull` on the records of a list (tkrzw_dbm_hash.cc 569-580). -/
def eachRead {ρ : Type} (p : Bytes → ρ → Bytes → Action × ρ) : List RecR → ρ → Option ρ
  | [], r => some r
  | x :: xs, r =>
    match x.value with
    | none => none
    | some v => eachRead p xs (p x.key r v).2

/-- `ProcessImpl` on each key of a bucket (tkrzw_dbm_hash.cc 595-604). -/
def eachWrite {ρ : Type} (e : Env) (p : Bytes → ρ → Bytes → Action × ρ) (i : Nat) : List Bytes → State → ρ → State × ρ
  | [], s, r => (s, r)
  | k :: ks, s, r =>
    let x := processImpl e metaMinReadSize s k i true (fullOnly (p k r) r)
    eachWrite e p i ks x.1 x.2

/-- The pass over the buckets (tkrzw_dbm_hash.cc 543-612). -/
def eachBuckets {ρ : Type} (e : Env) (w : Bool) (p : Bytes → ρ → Bytes → Action × ρ) : (fuel i : Nat) → State → ρ → State × ρ
  | 0, _, s, r => (s, r)
  | fuel + 1, i, s, r =>
    match bucketRecs (fileReader s.cfg s.file metaMinReadSize) i with
    | none => (s.fail, r)
    | some rs =>
      if w then
        let x := eachWrite e p i ((eachLive [] rs).foldl (fun ks x => setIns x.key ks) []) s r
        eachBuckets e w p fuel (i + 1) x.1 x.2
      else
        match eachRead p (eachLive [] rs) r with
        | none => (s.fail, r)
        | some r => eachBuckets e w p fuel (i + 1) s r

/-- `ProcessEach` (tkrzw_dbm_hash.cc 503-618); `emp` is the effect of `ProcessEmpty(NOOP)` on the processor. -/
def processEach {ρ : Type} (e : Env) (s : State) (w : Bool) (p : Bytes → ρ → Bytes → Action × ρ) (emp : ρ → ρ) (r : ρ) :
    State × ρ :=
  if w = false ∧ s.cfg.inPlace = true then
    match eachScan (fileReader s.cfg s.file metaMinReadSize) p s.file.length (recordBase s.cfg) (emp r) with
    | none => (s.fail, r)
    | some r => (s, emp r)
  else
    let x := eachBuckets e w p s.cfg.nb 0 s (emp r)
    (x.1, emp x.2)

/-- The iterator (tkrzw_dbm_hash.cc 2285-2290): -1 is an iterator without position. -/
structure Iter where
  bucket : Int
  keys : List Bytes
deriving Repr, DecidableEq

/-- `First` (tkrzw_dbm_hash.cc 2299-2307). -/
def Iter.first : Iter := ⟨0, []⟩

/-- `ReadNextBucketRecords` (tkrzw_dbm_hash.cc 1836-1887): `none` is a failure; `fuel` bounds the buckets. -/
def readNext (s : State) : (fuel : Nat) → Iter → Option (Iter × Bool)
  | 0, it => some ({ it with bucket := -1 }, false)
  | fuel + 1, it =>
    if it.bucket < 0 ∨ it.bucket ≥ s.cfg.nb then some ({ it with bucket := -1 }, false)
    else
      match bucketRecs (fileReader s.cfg s.file metaMinReadSize) it.bucket.toNat with
      | none => none
      | some rs =>
        let keys := iterKeys [] it.keys rs
        if rs ≠ [] ∧ keys ≠ [] then some (⟨it.bucket + 1, keys⟩, true)
        else readNext s fuel ⟨it.bucket + 1, keys⟩

/-- `ReadKeys` (tkrzw_dbm_hash.cc 2378-2392). -/
def readKeys (s : State) (it : Iter) : Option (Iter × Bool) :=
  if it.bucket < 0 then some (it, false)
  else if it.keys = [] then
    match readNext s (s.cfg.nb + 1) it with
    | none => none
    | some (it, ok) => some (it, ok && !it.keys.isEmpty)
  else some (it, true)

/-- `Next` (tkrzw_dbm_hash.cc 2333-2341): `some false` is NOT_FOUND_ERROR. -/
def next (s : State) (it : Iter) : Option (Iter × Bool) :=
  match readKeys s it with
  | none => none
  | some (it, false) => some (it, false)
  | some (it, true) => some ({ it with keys := it.keys.drop 1 }, true)

/-- `Process` of the iterator (tkrzw_dbm_hash.cc 2343-2376). The last component is what the processor returns; `none` is
NOT_FOUND_ERROR or a failure. -/
def iterProcess {τ : Type} (e : Env) (s : State) (it : Iter) (w : Bool) (p : Bytes → Bytes → Action × τ) :
    State × Iter × Option τ :=
  match readKeys s it with
  | none => (s.fail, it, none)
  | some (it, false) => (s, it, none)
  | some (it, true) =>
    match it.keys with
    | [] => (s.fail, it, none)
    | k :: ks =>
      let x := process e s k w (fullOnly (fun v => ((p k v).1, some ((p k v).1, (p k v).2))) none)
      match x.2 with
      | none => (x.1, it, none)
      | some (.remove, t) => (x.1, { it with keys := ks }, some t)
      | some (_, t) => (x.1, it, some t)

/-- `Jump` (tkrzw_dbm_hash.cc 2309-2331). -/
def jump (e : Env) (s : State) (k : Bytes) : Option (Iter × Bool) :=
  match readNext s (s.cfg.nb + 1) ⟨e.hash k s.cfg.nb, []⟩ with
  | none => none
  | some (it, false) => some (it, false)
  | some (it, true) =>
    if k ∈ it.keys then some ({ it with keys := it.keys.dropWhile (· ≠ k) }, true) else some (⟨-1, []⟩, false)

end Verif.Hash
