import Verif.Fit.Model

/-!
# Model of the fitness functions with caches, the parallel evaluator and the algorithms

The fitness function is described by a record `Fun` of what it is built from (triangulation, iteration,
hash, value of one piece), so that the same code serves `trianglesImageFunction` and
`polygonsImageFunction`.  A panic is `none`.
-/

namespace Verif.Alg

open Verif.Fit

/-- mutation/data.go 5-9 `Mutation`. -/
structure Mut where
  old : NP
  new : NP
  index : Nat
deriving DecidableEq, Repr

/-- What a caching fitness function (triangles.go 16-36, polygons.go 10-28) is built from: `Dt` is the triangulation
object, `K` the pieces it is cut into.
* `new`, `ins`, `rem`, `set`: the constructor and methods of the triangulation; points go through `createPoint`;
* `keys`: the pieces in the order in which they are iterated;
* `hash`, `same`: `Hash` and `Equals` of the cache data of a piece;
* `val`: the uncached value of a piece;
* `fin`: the fitness from all pieces and their values. -/
structure Fun (Dt K : Type) where
  new : Option Dt
  ins : Dt → NP → Option Dt
  rem : Dt → NP → Option Dt
  set : Dt → Dt → Dt
  keys : Dt → List K
  hash : K → Nat
  same : K → K → Bool
  val : K → Option ℚ
  fin : List (K × ℚ) → ℚ

/-- cache.go 21-27 `TriangleCacheData` (58-62 `PolygonCacheData`): entries are pointers to values that are not changed
after they are stored. -/
structure Entry (K : Type) where
  key : K
  fit : ℚ
  hash : Nat

/-- What the slice `TriangleCache` of a fitness function is: the slice of two nils made by the constructor
(triangles.go 191, 207), the function's own `nextCache` (151), or one of the two arrays of the parallel evaluator
(171, parallel.go 33). -/
inductive Ref where
  | fresh
  | own
  | shared (b : Bool)
deriving DecidableEq, Repr

/-- triangles.go 16-36: the mutable part of a fitness function.  `base` is the identity of the function whose
`Triangulation` pointer was stored in `Base`; `next` is the content of `nextCache`. -/
structure Fn (Dt K : Type) where
  tri : Option Dt
  base : Option Nat
  cache : Ref
  next : List (Entry K)

/-- parallel.go 10-15 `parallel`, with the memory it reaches: the fitness functions by identity, `slots` the slice
`evaluators`, the two cache arrays of `2 ^ k` entries and which of them is `cache` (the other is `nextCache`). -/
structure Sys (Dt K : Type) where
  fns : Nat → Fn Dt K
  slots : List Nat
  bufs : Bool → Nat → Option (Entry K)
  cur : Bool
  k : Nat

section
variable {Dt K : Type} (F : Fun Dt K)

/-- triangles.go 46-50: insert all points. -/
def insAll (d : Dt) (ps : List NP) : Option Dt := ps.foldlM F.ins d

/-- triangles.go 54-61: remove the old points, then insert the new ones. -/
def applyMuts (d : Dt) (ms : List Mut) : Option Dt := do
  let d ← (ms.map Mut.old).foldlM F.rem d
  (ms.map Mut.new).foldlM F.ins d

/-- triangles.go 44-62: the triangulation after the set-up of `Calculate`; `baseTri` is the triangulation `Base`
points to.  A base without triangulation cannot be dereferenced. -/
def setup (fn : Fn Dt K) (baseTri : Nat → Option Dt) (ps : List NP) (ms : List Mut) : Option Dt :=
  match fn.tri with
  | none => do
    let d ← F.new
    insAll F d ps
  | some d =>
    match fn.base with
    | some b => do
      let o ← baseTri b
      applyMuts F (F.set d o) ms
    | none => some d

/-- triangles.go 76 and 103: `uint32(hash & (uint64(len) - 1))`. -/
def indexOf (h len : Nat) : Nat := ((h % 2 ^ 64) &&& ((len + 2 ^ 64 - 1) % 2 ^ 64)) % 2 ^ 32

/-- The length of the slice `TriangleCache`; `old` is the own `nextCache` at the start of `Calculate`. -/
def refLen (k : Nat) (old : List (Entry K)) : Ref → Nat
  | .fresh => 2
  | .own => old.length
  | .shared _ => 2 ^ k

/-- triangles.go 105 `tris[index0]`.  If the slice is the function's own `nextCache`, the entries appended so far
(67, 143, 147) have overwritten the first ones; this holds whatever the capacity, as a reallocation can
only happen after all old entries were overwritten. -/
def readRef (bufs : Bool → Nat → Option (Entry K)) (k : Nat) (old out : List (Entry K)) (r : Ref) (i : Nat) :
    Option (Option (Entry K)) :=
  if i < refLen k old r then
    some (match r with
      | .fresh => none
      | .own => if i < out.length then out[i]? else old[i]?
      | .shared b => bufs b i)
  else none

/-- triangles.go 99-148: one piece; gives its value and the entry appended to `nextCache`. -/
def keyStep (bufs : Bool → Nat → Option (Entry K)) (k : Nat) (old out : List (Entry K)) (r : Ref) (key : K) :
    Option (ℚ × Entry K) := do
  let i := indexOf (F.hash key) (refLen k old r)
  let c ← readRef bufs k old out r i
  match c.filter (fun e => F.same e.key key) with
  | some e => some (e.fit, e)
  | none => do
    let v ← F.val key
    some (v, ⟨key, v, i⟩)

/-- triangles.go 80-149: the loop over the pieces, giving the values and the new `nextCache`. -/
def keyLoop (bufs : Bool → Nat → Option (Entry K)) (k : Nat) (old : List (Entry K)) (r : Ref) :
    List K → List (Entry K) → List (K × ℚ) → Option (List (Entry K) × List (K × ℚ))
  | [], out, acc => some (out, acc)
  | key :: ks, out, acc => do
    let x ← keyStep F bufs k old out r key
    keyLoop bufs k old r ks (out ++ [x.2]) (acc ++ [(key, x.1)])

/-- Replace the state of one function. -/
def setFn (s : Sys Dt K) (id : Nat) (fn : Fn Dt K) : Sys Dt K := { s with fns := fun j => if j = id then fn else s.fns j }

/-- parallel.go 17 `Get` and triangles.go 39-160 `Calculate` of member `i`, run without interruption. -/
def calculate (s : Sys Dt K) (i : Nat) (ps : List NP) (ms : List Mut) : Option (ℚ × Sys Dt K) := do
  let id ← s.slots[i]?
  let fn := s.fns id
  let d ← setup F fn (fun b => (s.fns b).tri) ps ms
  let x ← keyLoop F s.bufs s.k fn.next fn.cache (F.keys d) [] []
  some (F.fin x.2, setFn s id ⟨some d, none, .own, x.1⟩)

/-- triangles.go 166-168 `Cache()`: the entries `Update` ranges over; `none` entries are nil interfaces, on which
`CachedHash` panics. -/
def cacheOf (s : Sys Dt K) (fn : Fn Dt K) : List (Option (Entry K)) :=
  match fn.cache with
  | .fresh => [none, none]
  | .own => fn.next.map some
  | .shared b => (List.range (2 ^ s.k)).map (s.bufs b)

/-- parallel.go 29-31: store one entry. -/
def putEntry (k : Nat) (buf : Nat → Option (Entry K)) (e : Option (Entry K)) : Option (Nat → Option (Entry K)) := do
  let e ← e
  if e.hash < 2 ^ k then some (fun x => if x = e.hash then some e else buf x) else none

/-- parallel.go 25-34 `Update`. -/
def update (s : Sys Dt K) (i : Nat) : Option (Sys Dt K) := do
  let id ← s.slots[i]?
  let fn := s.fns id
  let buf ← (cacheOf s fn).foldlM (putEntry s.k) (s.bufs s.cur)
  some { setFn s id { fn with cache := .shared s.cur } with bufs := fun b => if b = s.cur then buf else s.bufs b }

/-- parallel.go 21-23 `Prepare`. -/
def prepare (s : Sys Dt K) : Sys Dt K := { s with cur := !s.cur }

/-- parallel.go 36-38 and triangles.go 162-164 `SetBase`. -/
def setBase (s : Sys Dt K) (i j : Nat) : Option (Sys Dt K) := do
  let id ← s.slots[i]?
  let b ← s.slots[j]?
  some (setFn s id { s.fns id with base := (s.fns b).tri.map fun _ => b })

/-- Swap two elements of a slice. -/
def swapList {α : Type} (l : List α) (i j : Nat) : Option (List α) := do
  let a ← l[i]?
  let b ← l[j]?
  some ((l.set i b).set j a)

/-- parallel.go 40-42 `Swap`. -/
def swap (s : Sys Dt K) (i j : Nat) : Option (Sys Dt K) := do
  let l ← swapList s.slots i j
  some { s with slots := l }

/-- parallel.go 45-52 `NewParallel` on `n` functions of triangles.go 175-196 `TrianglesImageFunctions`. -/
def newParallel (n k : Nat) : Sys Dt K :=
  ⟨fun _ => ⟨none, none, .fresh, []⟩, List.range n, fun _ _ => none, false, k⟩

/-! ### Sequences of calls -/

/-- A call of a method of the evaluator or of `Calculate` on the function it returns. -/
inductive Call where
  | calculate (i : Nat) (ps : List NP) (ms : List Mut)
  | update (i : Nat)
  | prepare
  | setBase (i j : Nat)
  | swap (i j : Nat)

/-- One call; the first component is the fitness returned, if any. -/
def call (s : Sys Dt K) : Call → Option (Option ℚ × Sys Dt K)
  | .calculate i ps ms => (calculate F s i ps ms).map fun x => (some x.1, x.2)
  | .update i => (update s i).map fun s => (none, s)
  | .prepare => some (none, prepare s)
  | .setBase i j => (setBase s i j).map fun s => (none, s)
  | .swap i j => (swap s i j).map fun s => (none, s)

/-- A sequence of calls. -/
def calls (s : Sys Dt K) : List Call → Option (Sys Dt K)
  | [] => some s
  | c :: cs => do
    let x ← call F s c
    calls x.2 cs

/-! ### Concurrent evaluation: `calculateFitnesses` -/

/-- The state of the task of one member: not submitted; submitted with its fitness function; inside the loop over the pieces
(with the slice `tris`, the old own cache, the pieces to do and the values so far); computed; in the channel; received. -/
inductive Task (K : Type) where
  | idle
  | ready (id : Nat)
  | loop (id : Nat) (r : Ref) (old : List (Entry K)) (todo : List K) (acc : List (K × ℚ))
  | done (id : Nat) (v : ℚ)
  | sent (id : Nat)
  | received (id : Nat)

/-- The position of the main goroutine: in the submitting loop, or receiving with `m` results received. -/
inductive PC where
  | sub (k : Nat)
  | recv (m : Nat)
deriving DecidableEq, Repr

/-- A state of `calculateFitnesses`: memory of the evaluator, tasks, the channel, the results received in order. -/
structure Ph (Dt K : Type) where
  sys : Sys Dt K
  pc : PC
  tasks : Nat → Task K
  chan : List (Nat × ℚ)
  arr : List (Nat × ℚ)

/-- Replace the state of one task. -/
def setTask (ts : Nat → Task K) (i : Nat) (t : Task K) : Nat → Task K := fun j => if j = i then t else ts j

/-- Which goroutine moves: the main one, or the worker of a task. -/
inductive Who where
  | main
  | work (i : Nat)
deriving DecidableEq, Repr

/-- Which moves are possible with `n` tasks (simple.go 54-88, modifiedgenetic.go 99-140).  A receive blocks on an empty channel;
after the last result the channel is closed and the loop ends.  Sends never block, as the buffer has a place per task. -/
def Enabled (n : Nat) (p : Ph Dt K) : Who → Prop
  | .main =>
    match p.pc with
    | .sub _ => True
    | .recv m => (m < n ∨ n = 0) ∧ p.chan ≠ []
  | .work i =>
    match p.tasks i with
    | .ready _ => True
    | .loop .. => True
    | .done .. => True
    | _ => False

/-- One move.  Main: submit a task with its evaluator (simple.go 57-74), `Prepare` (76), receive and `Update` (79-81).
Worker: the set-up of `Calculate` (triangles.go 40-78), one piece (80-149), its end (151-159), the send (simple.go 67-70). -/
def move (n : Nat) (pts : Nat → List NP) (muts : Nat → List Mut) (p : Ph Dt K) : Who → Option (Ph Dt K)
  | .main =>
    match p.pc with
    | .sub k =>
      if k < n then do
        let id ← p.sys.slots[k]?
        some { p with pc := .sub (k + 1), tasks := setTask p.tasks k (.ready id) }
      else some { p with pc := .recv 0, sys := prepare p.sys }
    | .recv m =>
      match p.chan with
      | [] => none
      | (i, v) :: rest => do
        let s ← update p.sys i
        let id ← p.sys.slots[i]?
        some { p with sys := s, pc := .recv (m + 1), tasks := setTask p.tasks i (.received id), chan := rest, arr := p.arr ++ [(i, v)] }
  | .work i =>
    match p.tasks i with
    | .ready id => do
      let fn := p.sys.fns id
      let d ← setup F fn (fun b => (p.sys.fns b).tri) (pts i) (muts i)
      some { p with
        sys := setFn p.sys id ⟨some d, none, fn.cache, []⟩
        tasks := setTask p.tasks i (.loop id fn.cache fn.next (F.keys d) []) }
    | .loop id r old (key :: todo) acc => do
      let fn := p.sys.fns id
      let x ← keyStep F p.sys.bufs p.sys.k old fn.next r key
      some { p with
        sys := setFn p.sys id { fn with next := fn.next ++ [x.2] }
        tasks := setTask p.tasks i (.loop id r old todo (acc ++ [(key, x.1)])) }
    | .loop id _ _ [] acc =>
      some { p with
        sys := setFn p.sys id { p.sys.fns id with cache := .own }
        tasks := setTask p.tasks i (.done id (F.fin acc)) }
    | .done id v => some { p with tasks := setTask p.tasks i (.sent id), chan := p.chan ++ [(i, v)] }
    | _ => none

/-- The start of `calculateFitnesses`. -/
def Ph.start (s : Sys Dt K) : Ph Dt K := ⟨s, .sub 0, fun _ => .idle, [], []⟩

/-- A schedule: moves that are enabled one after the other and do not panic. -/
inductive Run (n : Nat) (pts : Nat → List NP) (muts : Nat → List Mut) : Ph Dt K → List Who → Ph Dt K → Prop where
  | nil (p) : Run n pts muts p [] p
  | snoc {p q r : Ph Dt K} {l : List Who} (w : Who) : Run n pts muts p l q → Enabled n q w → move F n pts muts q w = some r →
      Run n pts muts p (l ++ [w]) r

/-- All results have been received and the channel is closed (simple.go 84-86). -/
def Ph.Finished (n : Nat) (p : Ph Dt K) : Prop := p.pc = .recv n ∧ 0 < n

end

end Verif.Alg
