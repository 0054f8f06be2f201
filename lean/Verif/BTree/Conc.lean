import Verif.BTree.Props
import Verif.Dbm.TwoPhaseProof
/-
Concurrent calls of `Process` and `ProcessMulti` of BabyDBM and TreeDBM. A call reorganises the tree first if there is something to do, with the lock of the
database held exclusively. Then it shares this lock, finds the leaves of its keys, locks them in the order of their numbers, runs its processors, and unlocks the leaves.
In TreeDBM the leaves are loaded into a cache, and a call ends with saving some leaves that nobody uses and dropping them from the cache.

A step is: a test, a search down the tree (the inner nodes do not change while the lock is shared), one access of the cache, reading one page, locking or
unlocking one leaf, `ProcessImpl` for one record (the leaf is locked, the counters are atomic, the set of leaves to reorganise has its own lock), a
reorganisation. The locks are reader/writer locks with mutual exclusion (C31 is about the locks themselves). The hash database below TreeDBM does one
`Process` at a time (C73). The inner nodes are not loaded and dropped here: they do not change while the lock is shared, so that a copy read
earlier is as good as a new one. Whether a leaf differs from its page (`dirty`) is C63; here a leaf that is dropped is always written.
-/
namespace Verif.BTree.Conc
open Verif Verif.TwoPhase

/-- The class: the tree, whether there is a cache of leaves (TreeDBM), and whether every update is written to its page (`PAGE_UPDATE_WRITE`, tkrzw_dbm_tree.h). -/
structure Par where
  cfg : Cfg
  paged : Bool
  write : Bool

/-- The tree, with each leaf as it is in the cache, or as its page when it is not there; which leaves are in the cache; the pages in the hash
database. `fault` is raised when a step follows a dangling number or reads a page that does not exist. -/
structure Mem where
  tree : State
  cached : Nat → Bool
  disk : Nat → Option Leaf
  fault : Bool

/-- Where a thread is. `ids` are the leaves found so far, which it holds pointers to. -/
inductive Pc (ρ : Type) where
  | idle
  | begin (c : Call ρ)
  | reorg (c : Call ρ)
  | enter (c : Call ρ)
  | search (c : Call ρ) (ids : List Nat) (todo : List Bytes)
  | load (c : Call ρ) (ids : List Nat) (id : Nat) (todo : List Bytes)
  | add (c : Call ρ) (ids : List Nat) (id : Nat) (page : Leaf) (todo : List Bytes)
  | lock (c : Call ρ) (ids got todo : List Nat)
  | body (c : Call ρ) (ids held jobs : List Nat) (rest : List (Bytes × ProcS ρ)) (r : ρ)
  | unlock (c : Call ρ) (ids held : List Nat) (r : ρ)
  | leave (c : Call ρ) (ids : List Nat) (r : ρ)

/-- A thread and the number of its present call. -/
structure Thread (ρ : Type) where
  id : Nat
  pc : Pc ρ

structure Sys (ρ : Type) where
  mem : Mem
  threads : List (Thread ρ)
  next : Nat
  hist : List (HEv ρ)

/-- A thread makes a call, or goes on; the numbers are the leaves that it drops from the cache if it comes to that, or those that a reorganisation loads. -/
inductive Act (ρ : Type) where
  | call (c : Call ρ)
  | go (ids : List Nat)

section
variable {ρ : Type}

/-- Whether the thread shares the lock of the database. -/
def Pc.inside : Pc ρ → Bool
  | .idle | .begin _ | .reorg _ | .enter _ => false
  | _ => true

/-- The leaves that a thread has pointers to. -/
def Pc.refs : Pc ρ → List Nat
  | .search _ ids _ | .load _ ids _ _ | .add _ ids _ _ _ | .lock _ ids _ _ | .body _ ids _ _ _ _ | .unlock _ ids _ _ | .leave _ ids _ => ids
  | _ => []

/-- The leaf whose page a thread has read and not yet put into the cache. -/
def Pc.reading : Pc ρ → Option Nat
  | .add _ _ id _ _ => some id
  | _ => none

/-- The leaves that a thread has locked. -/
def Pc.held : Pc ρ → List Nat
  | .lock _ _ got _ => got
  | .body _ _ h _ _ _ => h
  | .unlock _ _ h _ => h
  | _ => []

/-- Whether it has them exclusively. -/
def Pc.writer : Pc ρ → Bool
  | .lock c _ _ _ | .body c _ _ _ _ _ | .unlock c _ _ _ => c.writable
  | _ => false

/-- Whether thread `i` can lock the leaf `k` (`leaf_node->mutex`): no other thread has it, or all that have it share it and so does `i`. -/
def canLock (ts : List (Thread ρ)) (i k : Nat) (w : Bool) : Bool :=
  (List.range ts.length).all fun j => match ts[j]? with
    | some th => j = i || !(th.pc.held.contains k) || (!w && !th.pc.writer)
    | none => true

/-- The insertion into the set of leaves to lock (`uniq_leaf_nodes`, tkrzw_dbm_baby.cc 456, 460; `id_leaf_nodes`, tkrzw_dbm_tree.cc 618, 626), which is in order. -/
def insertId (k : Nat) : List Nat → List Nat
  | [] => [k]
  | x :: l => if k < x then k :: x :: l else if k = x then x :: l else x :: insertId k l

/-- The leaves in the order of locking. -/
def lockOrder (ids : List Nat) : List Nat := ids.foldl (fun l k => insertId k l) []

/-- Whether the call looks for leaves to reorganise (tkrzw_dbm_baby.cc 418, 450; tkrzw_dbm_tree.cc 555, 598). -/
def mayReorg (c : Cfg) (cl : Call ρ) : Bool := cl.writable || (cl.multi && c.multiReorg)

/-- `AdjustCaches` (tkrzw_dbm_tree.cc 2077-2098) for one leaf: if it is in the cache and no thread has a pointer to it, it is written to its page
and dropped. Which leaves are tried depends on a clock and on the recency of their use; here any. -/
def evict (ts : List (Thread ρ)) (m : Mem) (id : Nat) : Mem :=
  if m.cached id && ts.all (fun th => !th.pc.refs.contains id) then
    { m with disk := upd m.disk id (m.tree.leaves id), cached := fun i => if i = id then false else m.cached i }
  else m

/-- `ReorganizeTree` (tkrzw_dbm_baby.cc 718-731; tkrzw_dbm_tree.cc 1632-1657): the leaves that it changes are in the cache afterwards,
and any others. A leaf that it removes has no page (`RemoveLeafNode`, tkrzw_dbm_tree.cc 1379-1392). -/
def reorgMem (c : Cfg) (m : Mem) (ids : List Nat) : Mem :=
  match reorgIf c m.tree true with
  | none => { m with fault := true }
  | some s => { m with
    tree := s
    cached := fun i => (s.leaves i).isSome && (m.cached i || decide (s.leaves i ≠ m.tree.leaves i) || ids.contains i)
    disk := fun i => if (s.leaves i).isSome then m.disk i else none }

/-- `ProcessImpl` (tkrzw_dbm_baby.cc 1074-1120; tkrzw_dbm_tree.cc 2006-2075), then `SaveLeafNodeImpl` if every update is written at once
(tkrzw_dbm_tree.cc 582-587, for a writer; 639-644, for any call). -/
def work (P : Par) (m : Mem) (cl : Call ρ) (id : Nat) (k : Bytes) (p : ProcR ρ) : Option (Mem × ρ) :=
  (processImpl P.cfg m.tree id k cl.writable fun _ => p).map fun x =>
    ({ m with tree := x.1, disk := if P.paged && P.write && (cl.writable || cl.multi) then upd m.disk id (x.1.leaves id) else m.disk }, x.2)

/-- One step of one thread: `Process` (tkrzw_dbm_baby.cc 417-433; tkrzw_dbm_tree.cc 553-593), `ProcessMulti` (tkrzw_dbm_baby.cc 447-483; tkrzw_dbm_tree.cc
595-655), with `LoadLeafNode` (tkrzw_dbm_tree.cc 1284-1337) and `AddToCache` (258-263;  `DoubleLRUCache::Add`, tkrzw_containers.h 1518-1525, keeps a leaf that is
already there). -/
def step (P : Par) (s : Sys ρ) (ev : Nat × Act ρ) : Sys ρ :=
  match s.threads[ev.1]? with
  | none => s
  | some th =>
    let to := fun (pc : Pc ρ) => s.threads.set ev.1 ⟨th.id, pc⟩
    match th.pc, ev.2 with
    | .idle, .call c => { s with threads := s.threads.set ev.1 ⟨s.next, .begin c⟩, next := s.next + 1, hist := s.hist ++ [.inv s.next c] }
    | .begin c, .go _ => if mayReorg P.cfg c && !s.mem.tree.reorg.isEmpty then { s with threads := to (.reorg c) } else { s with threads := to (.enter c) }
    | .reorg c, .go ids =>
      if s.threads.all (fun t => !t.pc.inside) then { s with mem := reorgMem P.cfg s.mem ids, threads := to (.enter c) } else s
    | .enter c, .go _ => { s with threads := to (.search c [] (c.pairs.map (·.1))) }
    | .search c ids (k :: todo), .go _ =>
      match search P.cfg s.mem.tree k with
      | none => { s with mem := { s.mem with fault := true } }
      | some id => if P.paged && !s.mem.cached id then { s with threads := to (.load c ids id todo) } else { s with threads := to (.search c (ids ++ [id]) todo) }
    | .search c ids [], .go _ => { s with threads := to (.lock c ids [] (lockOrder ids)) }
    | .load c ids id todo, .go _ =>
      match s.mem.disk id with
      | none => { s with mem := { s.mem with fault := true } }
      | some page => { s with threads := to (.add c ids id page todo) }
    | .add c ids id page todo, .go _ =>
      if s.mem.cached id then { s with threads := to (.search c (ids ++ [id]) todo) }
      else { s with
        mem := { s.mem with
          tree := { s.mem.tree with leaves := upd s.mem.tree.leaves id (some page) }
          cached := fun i => if i = id then true else s.mem.cached i }
        threads := to (.search c (ids ++ [id]) todo) }
    | .lock c ids got (k :: todo), .go _ =>
      if canLock s.threads ev.1 k c.writable then { s with threads := to (.lock c ids (got ++ [k]) todo) } else s
    | .lock c ids got [], .go _ => { s with threads := to (.body c ids got ids c.pairs c.init) }
    | .body c ids h (id :: jobs) ((k, p) :: rest) r, .go _ =>
      match work P s.mem c id k (p r) with
      | none => { s with mem := { s.mem with fault := true } }
      | some x => { s with mem := x.1, threads := to (.body c ids h jobs rest x.2) }
    | .body c ids h _ _ r, .go _ => { s with threads := to (.unlock c ids h r) }
    | .unlock c ids (k :: h) r, .go _ => { s with threads := to (.unlock c ids (k :: h).dropLast r) }
    | .unlock c ids [] r, .go _ => { s with threads := to (.leave c ids r) }
    | .leave _ _ r, .go drop =>
      { s with
        mem := if P.paged then drop.foldl (evict s.threads) s.mem else s.mem
        threads := to .idle
        hist := s.hist ++ [.ret th.id r] }
    | _, _ => s

/-- `n` threads and a database with the tree `t` whose leaves are all saved; a new one is `init` (`InitializeNodes`, tkrzw_dbm_baby.cc 648-653; tkrzw_dbm_tree.cc 465-476). -/
def start (t : State) (n : Nat) : Sys ρ := ⟨⟨t, fun _ => false, t.leaves, false⟩, List.replicate n ⟨0, .idle⟩, 0, []⟩

def run (P : Par) (t : State) (n : Nat) (es : List (Nat × Act ρ)) : Sys ρ := es.foldl (step P) (start t n)

/-- No call is under way. -/
def Quiet (s : Sys ρ) : Prop := ∀ th ∈ s.threads, th.pc = .idle

/-- No thread drops a leaf from the cache while another thread has read its page and not yet put it there. -/
def Calm (P : Par) (s : Sys ρ) : List (Nat × Act ρ) → Prop
  | [] => True
  | ev :: es =>
    (∀ ids, ev.2 = .go ids → ∀ id ∈ ids, ∀ th ∈ s.threads, th.pc.reading ≠ some id) ∧ Calm P (step P s ev) es

end

end Verif.BTree.Conc
