/-
Replica exchange: `ReplicaMove` (src/mcMd/perturb/ReplicaMove.cpp).

Each processor simulates a system with its own perturbation parameters.  Rank 0
collects parameters and derivatives, draws a permutation by a number of attempted
swaps, and tells each rank where to send its configuration and from where to
receive one.

Simplifications: `double` is ℝ; `Isend`/`Irecv` followed by `Wait` for both is a send
that does not wait followed by a receive; random numbers are arguments; the
boundary is orthorhombic (`lengths`); an atom has a position only, because nothing
else is exchanged.
-/
import Verif.Cpp.Outcome
import Verif.Cpp.Net
import Verif.McMoves.Model

set_option autoImplicit false

namespace Verif.Replica

open Verif.Cpp Verif.Cpp.Out Verif.Cpp.Net Verif.McMoves

/-- A vector. -/
abbrev Vec := Fin 3 → ℝ

/-- What a rank holds: the boundary, the positions of its atoms in the order of the
iterators, and the counters `swapAttempt_`, `swapAccept_` (ReplicaMove.h). -/
structure Rep where
  lengths : Vec
  pos : List Vec
  attempt : ℕ
  accept : ℕ

/-- Contents of messages. -/
inductive Msg
  | data (der par : List ℝ)
  | int (i : ℕ)
  | vec (v : Vec)
  | positions (l : List Vec)

/-- Result of `move` on one rank: the new state, the number written to the log, and
the partners given to observers (source and destination) if something was exchanged. -/
structure Res where
  rep : Rep
  log : ℕ
  partners : Option (ℕ × ℕ)

/-- The program of a rank. -/
abbrev Prog := Proc ℕ Msg (Out Res)

/-- The tag used by `MemoryOArchive::send` (util library). -/
def dataTag : ℕ := 5

/-! ### Choice of the permutation (rank 0) -/

/-- Element `k` of an array of parameters or derivatives. -/
def at' (l : List ℝ) (k : ℕ) : ℝ := l.getD k 0

/-- `weight`, ReplicaMove.cpp:214-219. -/
noncomputable def weight (nPar : ℕ) (der par : ℕ → List ℝ) (perm : ℕ → ℕ) (i j : ℕ) : ℝ :=
  (List.range nPar).foldl (fun w k =>
    w + (at' (par (perm j)) k - at' (par (perm i)) k) * (at' (der i) k - at' (der j) k)) 0

/-- Random numbers of one attempt: `i`, `j` as drawn, and the deviate of
`metropolis`. -/
structure Draw where
  i : ℕ
  j : ℕ
  v : ℝ

/-- The second member of the pair, ReplicaMove.cpp:210-211. -/
def second (d : Draw) : ℕ := if d.i ≤ d.j then d.j + 1 else d.j

/-- Exchange of two elements of the array, ReplicaMove.cpp:226-228. -/
def swapAt (perm : ℕ → ℕ) (i j : ℕ) : ℕ → ℕ :=
  Function.update (Function.update perm i (perm j)) j (perm i)

/-- One attempt, ReplicaMove.cpp:206-230.  Reading `allDerivatives` beyond its end is
undefined. -/
noncomputable def attempt (n nPar : ℕ) (der par : ℕ → List ℝ) (st : (ℕ → ℕ) × ℕ) (d : Draw) :
    Out ((ℕ → ℕ) × ℕ) := do
  require (d.i < n)
  require (second d < n)
  let acc := metropolis (Real.exp (-weight nPar der par st.1 d.i (second d))) d.v
  ok (if acc then (swapAt st.1 d.i (second d), st.2 + 1) else st)

/-- All attempts, starting from the identity, ReplicaMove.cpp:202-230. -/
noncomputable def sample (n nPar : ℕ) (der par : ℕ → List ℝ) (ds : List Draw) :
    Out ((ℕ → ℕ) × ℕ) :=
  loop (attempt n nPar der par) ds (id, 0)

/-! ### Exchange of configurations -/

/-- Contents of `ptPositionPtr_` after receiving at most `cap` vectors: a longer
message is an error of MPI, and a shorter one leaves the rest of the buffer as it
was. -/
def received (buf : List Vec) (cap : ℕ) (l : List Vec) : Out (List Vec) := do
  check (l.length ≤ cap)
  ok (l ++ buf.drop l.length)

/-- Adoption of positions, ReplicaMove.cpp:312-320: each atom takes the next element
of the buffer. -/
def adopt (rep : Rep) (L : Vec) (buf : List Vec) : Rep :=
  { rep with lengths := L, pos := buf.take rep.pos.length }

/-- ReplicaMove.cpp:288-333: positions are exchanged and adopted. -/
def exchangePos (buf : List Vec) (rep : Rep) (L : Vec) (sendPt recvPt : ℕ) : Prog :=
  .send sendPt 2 (.positions rep.pos) (.recv recvPt 2 fun
    | .positions l => .done (do
        let b ← received buf rep.pos.length l
        ok ⟨adopt rep L b, sendPt, some (sendPt, recvPt)⟩)
    | _ => .done Out.ub)

/-- ReplicaMove.cpp:256-333: nothing to do, or exchange of boundaries followed by
`setOrthorhombic` and the exchange of positions. -/
def exchange (my : ℕ) (buf : List Vec) (rep : Rep) (sendPt recvPt : ℕ) : Prog :=
  if recvPt = my ∨ sendPt = my then .done (ok ⟨rep, sendPt, none⟩)
  else .send sendPt 1 (.vec rep.lengths) (.recv recvPt 1 fun
    | .vec L => exchangePos buf rep L sendPt recvPt
    | _ => .done Out.ub)

/-! ### Programs -/

/-- Program of a rank other than 0, ReplicaMove.cpp:167-177 and 248-333. -/
def worker (my : ℕ) (der par : List ℝ) (buf : List Vec) (rep : Rep) : Prog :=
  .send 0 dataTag (.data der par) (.recv 0 0 fun
    | .int sendPt => .recv 0 1 fun
        | .int recvPt => exchange my buf rep sendPt recvPt
        | _ => .done Out.ub
    | _ => .done Out.ub)

/-- Loading of received arrays, ReplicaMove.cpp:190-196: `DArray::serialize` (util library)
throws if the capacity differs. -/
def loadArrays (nPar : ℕ) (d p : List ℝ) : Out (List ℝ × List ℝ) := do
  check (d.length = nPar)
  check (p.length = nPar)
  ok (d, p)

/-- Receives from a list of ranks, ReplicaMove.cpp:189-197. -/
def gather (nPar : ℕ) : List ℕ → (ℕ → List ℝ) × (ℕ → List ℝ) →
    ((ℕ → List ℝ) × (ℕ → List ℝ) → Prog) → Prog
  | [], acc, k => k acc
  | i :: l, acc, k => .recv i dataTag fun
      | .data d p =>
          match loadArrays nPar d p with
          | .ok (d, p) => gather nPar l (Function.update acc.1 i d, Function.update acc.2 i p) k
          | .throw => .done Out.throw
          | .ub => .done Out.ub
      | _ => .done Out.ub

/-- Sends to partners, ReplicaMove.cpp:233-244; the values kept for rank 0 itself are
`sendPt`, `recvPt`. -/
def distribute (perm : ℕ → ℕ) : List ℕ → Option ℕ → Option ℕ →
    (Option ℕ → Option ℕ → Prog) → Prog
  | [], sp, rp, k => k sp rp
  | i :: l, sp, rp, k =>
      let second (sp : Option ℕ) : Prog :=
        if perm i ≠ 0 then .send (perm i) 1 (.int i) (distribute perm l sp rp k)
        else distribute perm l sp (some i) k
      if i ≠ 0 then .send i 0 (.int (perm i)) (second sp)
      else second (some (perm i))

/-- The last part on rank 0; a variable that was not set is undefined. -/
def finish (buf : List Vec) (rep : Rep) : Option ℕ → Option ℕ → Prog
  | some sp, some rp => exchange 0 buf rep sp rp
  | _, _ => .done Out.ub

/-- What follows the choice of the permutation. -/
def afterSample (n : ℕ) (buf : List Vec) (rep : Rep) (nAttempt : ℕ) :
    Out ((ℕ → ℕ) × ℕ) → Prog
  | .ok (perm, acc) =>
      distribute perm (List.range n) none none
        (finish buf { rep with attempt := rep.attempt + nAttempt, accept := rep.accept + acc })
  | .throw => .done Out.throw
  | .ub => .done Out.ub

/-- Program of rank 0. -/
noncomputable def master (n nPar : ℕ) (der par : List ℝ) (buf : List Vec) (rep : Rep)
    (ds : List Draw) : Prog :=
  gather nPar (List.range' 1 (n - 1)) (fun _ => der, fun _ => par) fun acc =>
    afterSample n buf rep ds.length (sample n nPar acc.1 acc.2 ds)

/-- All programs; there is no process with a rank of `n` or more. -/
noncomputable def start (n nPar : ℕ) (der par : ℕ → List ℝ) (buf : ℕ → List Vec) (rep : ℕ → Rep)
    (ds : List Draw) : Conf ℕ Msg (Out Res) where
  proc p :=
    if p < n then
      if p ≠ 0 then worker p (der p) (par p) (buf p) (rep p)
      else master n nPar (der 0) (par 0) (buf 0) (rep 0) ds
    else .done Out.throw
  chan _ _ _ := []

end Verif.Replica
