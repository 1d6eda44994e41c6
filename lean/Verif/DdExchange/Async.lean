import Mathlib.Data.List.Basic
import Mathlib.Data.Fintype.Basic
import Mathlib.Algebra.BigOperators.Group.Finset.Basic
import Mathlib.Data.Fintype.BigOperators
import Mathlib.Algebra.Order.BigOperators.Group.Finset
import Verif.DdExchange.Topology

/-!
# Interleavings of the processors

`Exchanger` runs on every processor as a sequence of rounds. In a round a processor packs its send
buffer, sends it to `destRank`, receives the buffer of `sourceRank` and continues
(`Buffer::sendRecv`, Buffer.cpp:318-359: `Irecv`, `Isend`, `Wait`). This file models the rounds
with arbitrary interleaving of the processors and message queues that keep the order of messages
between each pair of processors (MPI messages between two processors do not overtake), and shows
that every execution ends in the result of performing each round on all processors at once,
which is the form used in `Model.lean`.

Simplified: the send is not blocking; the two waits are one step; message contents are values.
-/

set_option autoImplicit false

namespace Verif.DdExchange.Async

/-- A program in rounds: `msg t s` is the message sent in round `t` from state `s`, `next t s m`
the state after receiving `m`, and `dest t`, `source t` the partners. -/
structure Program (P S M : Type) where
  rounds : ℕ
  msg : ℕ → P → S → M
  next : ℕ → P → S → M → S
  dest : ℕ → P → P
  source : ℕ → P → P

/-- Configuration: for each processor the number of completed sends and receives and the state,
and for each pair of processors the queue of messages. -/
structure Config (P S M : Type) where
  sent : P → ℕ
  rcvd : P → ℕ
  state : P → S
  queue : P → P → List M

variable {P S M : Type} [DecidableEq P]

/-- Initial configuration. -/
def start (s : P → S) : Config P S M := ⟨fun _ => 0, fun _ => 0, s, fun _ _ => []⟩

/-- Steps of the system: processor `p` sends the message of its round, or takes the first message
from the queue of its source. -/
inductive Step (A : Program P S M) : Config P S M → Config P S M → Prop
  | send (c : Config P S M) (p : P) (hp : c.sent p = c.rcvd p) (hr : c.sent p < A.rounds) :
      Step A c
        { c with
          sent := Function.update c.sent p (c.sent p + 1)
          queue := fun a b => if a = p ∧ b = A.dest (c.sent p) p then
            c.queue a b ++ [A.msg (c.sent p) p (c.state p)] else c.queue a b }
  | recv (c : Config P S M) (p : P) (hp : c.sent p = c.rcvd p + 1) (m : M) (l : List M)
      (hm : c.queue (A.source (c.rcvd p) p) p = m :: l) :
      Step A c
        { c with
          rcvd := Function.update c.rcvd p (c.rcvd p + 1)
          state := Function.update c.state p (A.next (c.rcvd p) p (c.state p) m)
          queue := fun a b => if a = A.source (c.rcvd p) p ∧ b = p then l else c.queue a b }

/-- Executions. -/
inductive Steps (A : Program P S M) : Config P S M → ℕ → Config P S M → Prop
  | refl (c : Config P S M) : Steps A c 0 c
  | tail {c c' c'' : Config P S M} {n : ℕ} : Steps A c n c' → Step A c' c'' → Steps A c (n + 1) c''

/-- All processors together, round by round. -/
def lockstep (A : Program P S M) (s : P → S) : ℕ → P → S
  | 0 => s
  | t + 1 => fun p => A.next t p (lockstep A s t p)
      (A.msg t (A.source t p) (lockstep A s t (A.source t p)))

/-- Message sent by `p` in round `t`. -/
def lockMsg (A : Program P S M) (s : P → S) (t : ℕ) (p : P) : M := A.msg t p (lockstep A s t p)

/-- Messages from `a` to `b` of the rounds in `[lo, hi)`. -/
def pending (A : Program P S M) (s : P → S) (a b : P) (lo hi : ℕ) : List M :=
  ((List.range' lo (hi - lo)).filter fun t => decide (A.dest t a = b)).map fun t => lockMsg A s t a

/-- Invariant of executions. -/
structure Inv (A : Program P S M) (s : P → S) (c : Config P S M) : Prop where
  order : ∀ p, c.rcvd p ≤ c.sent p ∧ c.sent p ≤ c.rcvd p + 1 ∧ c.sent p ≤ A.rounds
  state : ∀ p, c.state p = lockstep A s (c.rcvd p) p
  queue : ∀ a b, c.queue a b = pending A s a b (c.rcvd b) (c.sent a)
  causal : ∀ b t, t < c.rcvd b → t < c.sent (A.source t b)

theorem pending_snoc (A : Program P S M) (s : P → S) (a b : P) (lo hi : ℕ) (h : lo ≤ hi) :
    pending A s a b lo (hi + 1) = pending A s a b lo hi ++
      if A.dest hi a = b then [lockMsg A s hi a] else [] := by
  unfold pending
  rw [show hi + 1 - lo = (hi - lo) + 1 by omega, List.range'_concat, List.filter_append,
    List.map_append]
  congr 1
  rw [show lo + 1 * (hi - lo) = hi by omega]
  by_cases hd : A.dest hi a = b <;> simp [hd]

theorem pending_cons (A : Program P S M) (s : P → S) (a b : P) (lo hi : ℕ) (h : lo < hi) :
    pending A s a b lo hi = (if A.dest lo a = b then [lockMsg A s lo a] else []) ++
      pending A s a b (lo + 1) hi := by
  unfold pending
  rw [show hi - lo = (hi - (lo + 1)) + 1 by omega, List.range'_succ]
  by_cases hd : A.dest lo a = b <;> simp [hd]

theorem pending_empty (A : Program P S M) (s : P → S) (a b : P) (lo hi : ℕ) (h : hi ≤ lo) :
    pending A s a b lo hi = [] := by
  unfold pending
  rw [show hi - lo = 0 by omega]; rfl

/-- The partners fit together: whoever `p` receives from in round `t` sends to `p`, and only
this one. -/
def Matched (A : Program P S M) : Prop := ∀ t p q, A.dest t p = q ↔ A.source t q = p

theorem step_inv {A : Program P S M} (hA : Matched A) {s : P → S} {c c' : Config P S M}
    (h : Inv A s c) (hs : Step A c c') : Inv A s c' := by
  cases hs with
  | send p hp hr =>
    refine ⟨?_, h.state, ?_, ?_⟩
    · intro q
      by_cases hq : q = p
      · subst hq
        simp only [Function.update_self]
        have := h.order q; omega
      · simp only [Function.update_of_ne hq]; exact h.order q
    · intro a b
      simp only
      by_cases ha : a = p
      · subst ha
        rw [Function.update_self]
        by_cases hle : c.rcvd b ≤ c.sent a
        · rw [pending_snoc _ _ _ _ _ _ hle, ← h.queue]
          by_cases hb : A.dest (c.sent a) a = b
          · rw [if_pos ⟨rfl, hb.symm⟩, if_pos hb, lockMsg, h.state a, hp]
          · rw [if_neg (fun hh => hb hh.2.symm), if_neg hb, List.append_nil]
        · have hb : A.dest (c.sent a) a ≠ b := by
            intro hb
            have hsrc := (hA _ _ _).1 hb
            have := h.causal b (c.sent a) (by omega)
            rw [hsrc] at this
            omega
          rw [if_neg (fun hh => hb hh.2.symm), h.queue, pending_empty _ _ _ _ _ _ (by omega),
            pending_empty _ _ _ _ _ _ (by omega)]
      · rw [if_neg (fun hh => ha hh.1), Function.update_of_ne ha]
        exact h.queue a b
    · intro b t ht
      have := h.causal b t ht
      by_cases hq : A.source t b = p
      · simp only [hq, Function.update_self]; rw [hq] at this; omega
      · simp only [Function.update_of_ne hq]; exact this
  | recv p hp m l hm =>
    set t := c.rcvd p with ht
    set a := A.source t p with ha
    have hda : A.dest t a = p := (hA t a p).2 rfl
    have hq := h.queue a p
    rw [hm, ← ht] at hq
    have hlt : t < c.sent a := by
      by_contra hge
      rw [pending_empty _ _ _ _ _ _ (by omega)] at hq
      exact List.cons_ne_nil _ _ hq
    rw [pending_cons _ _ _ _ _ _ hlt, if_pos hda, List.singleton_append, List.cons.injEq] at hq
    obtain ⟨hm1, hl1⟩ := hq
    refine ⟨?_, ?_, ?_, ?_⟩
    · intro q
      by_cases hqp : q = p
      · subst hqp
        simp only [Function.update_self]
        have := h.order q; omega
      · simp only [Function.update_of_ne hqp]; exact h.order q
    · intro q
      by_cases hqp : q = p
      · subst hqp
        simp only [Function.update_self, lockstep]
        rw [h.state q, ← ht, hm1]
        rfl
      · simp only [Function.update_of_ne hqp]; exact h.state q
    · intro a' b
      simp only
      by_cases hb : b = p
      · subst hb
        rw [Function.update_self]
        by_cases ha' : a' = a
        · subst ha'
          rw [if_pos ⟨rfl, rfl⟩, hl1]
        · rw [if_neg (fun hh => ha' hh.1), h.queue, ← ht]
          by_cases hlt' : t < c.sent a'
          · have hne : A.dest t a' ≠ b := fun hd => ha' ((hA _ _ _).1 hd).symm
            rw [pending_cons _ _ _ _ _ _ hlt', if_neg hne, List.nil_append]
          · rw [pending_empty _ _ _ _ _ _ (by omega), pending_empty _ _ _ _ _ _ (by omega)]
      · rw [if_neg (fun hh => hb hh.2), Function.update_of_ne hb]
        exact h.queue a' b
    · intro b u hu
      by_cases hb : b = p
      · subst hb
        simp only [Function.update_self] at hu
        by_cases hut : u = t
        · rw [hut]; exact hlt
        · exact h.causal b u (by omega)
      · simp only [Function.update_of_ne hb] at hu
        exact h.causal b u hu

theorem start_inv (A : Program P S M) (s : P → S) : Inv A s (start s) := by
  refine ⟨fun p => ⟨le_refl _, Nat.zero_le _, Nat.zero_le _⟩, fun p => rfl, ?_, ?_⟩
  · intro a b; exact (pending_empty A s a b 0 0 (le_refl _)).symm
  · intro b t ht; exact absurd ht (Nat.not_lt_zero _)

theorem steps_inv {A : Program P S M} (hA : Matched A) {s : P → S} {n : ℕ} {c : Config P S M}
    (h : Steps A (start s) n c) : Inv A s c := by
  generalize hc : start s = c0 at h
  induction h with
  | refl => subst hc; exact start_inv A s
  | tail _ hs ih => exact step_inv hA ih hs

/-- A configuration in which all processors have finished. -/
def Finished (A : Program P S M) (c : Config P S M) : Prop := ∀ p, c.rcvd p = A.rounds

/-- **Determinism.** Whatever the interleaving, when all processors have finished their states are
those of the lockstep execution and no message is left. -/
theorem async_result {A : Program P S M} (hA : Matched A) {s : P → S} {n : ℕ} {c : Config P S M}
    (h : Steps A (start s) n c) (hf : Finished A c) :
    c.state = lockstep A s A.rounds ∧ ∀ a b, c.queue a b = [] := by
  have hi := steps_inv hA h
  refine ⟨funext fun p => by rw [hi.state p, hf p], ?_⟩
  intro a b
  rw [hi.queue]
  apply pending_empty
  rw [hf b]
  exact (hi.order a).2.2

/-- **No deadlock.** As long as some processor has not finished, some processor can proceed. -/
theorem async_progress {A : Program P S M} (hA : Matched A) {s : P → S} {n : ℕ} {c : Config P S M}
    (h : Steps A (start s) n c) (hf : ¬ Finished A c) : ∃ c', Step A c c' := by
  have hi := steps_inv hA h
  have hex : ∃ r, ∃ p, c.rcvd p = r ∧ r < A.rounds := by
    unfold Finished at hf
    push Not at hf
    obtain ⟨p, hp⟩ := hf
    exact ⟨c.rcvd p, p, rfl, by have := hi.order p; omega⟩
  classical
  obtain ⟨p, hp, hlt⟩ := Nat.find_spec hex
  have hmin : ∀ q, c.rcvd p ≤ c.rcvd q := by
    intro q
    by_contra hq
    push Not at hq
    have := Nat.find_min hex (m := c.rcvd q) (by rw [← hp]; exact hq)
    exact this ⟨q, rfl, by omega⟩
  rw [← hp] at hlt
  by_cases h1 : c.sent p = c.rcvd p
  · exact ⟨_, Step.send c p h1 (by omega)⟩
  · have h2 : c.sent p = c.rcvd p + 1 := by have := hi.order p; omega
    have hq := hi.queue (A.source (c.rcvd p) p) p
    by_cases h3 : c.rcvd p < c.sent (A.source (c.rcvd p) p)
    · rw [pending_cons _ _ _ _ _ _ h3, if_pos ((hA _ _ _).2 rfl), List.singleton_append] at hq
      exact ⟨_, Step.recv c p h2 _ _ hq⟩
    · have h4 := hmin (A.source (c.rcvd p) p)
      have h5 := hi.order (A.source (c.rcvd p) p)
      exact ⟨_, Step.send c (A.source (c.rcvd p) p) (by omega) (by omega)⟩

/-- **Termination.** Every execution is finite: its length is bounded. -/
theorem async_bounded [Fintype P] {A : Program P S M} (hA : Matched A) {s : P → S} {n : ℕ}
    {c : Config P S M} (h : Steps A (start s) n c) : n ≤ 2 * A.rounds * Fintype.card P := by
  have hn : n = ∑ p, (c.sent p + c.rcvd p) := by
    clear hA
    generalize hc : start s = c0 at h
    induction h with
    | refl => subst hc; simp [start]
    | tail _ hs ih =>
      rw [ih]
      have key : ∀ (f : P → ℕ) (p : P), ∑ q, Function.update f p (f p + 1) q = (∑ q, f q) + 1 := by
        intro f p
        rw [Finset.sum_update_of_mem (Finset.mem_univ p), ← Finset.add_sum_erase _ f (Finset.mem_univ p),
          Finset.sdiff_singleton_eq_erase]
        omega
      cases hs with
      | send p hp hr =>
        simp only [Finset.sum_add_distrib, key]; omega
      | recv p hp m l hm =>
        simp only [Finset.sum_add_distrib, key]; omega
  have hi := steps_inv hA h
  rw [hn]
  calc ∑ p, (c.sent p + c.rcvd p) ≤ ∑ _p : P, 2 * A.rounds := by
        apply Finset.sum_le_sum
        intro p _
        have := hi.order p; omega
    _ = 2 * A.rounds * Fintype.card P := by
        rw [Finset.sum_const, Finset.card_univ, smul_eq_mul, Nat.mul_comm]

/-! ## The exchange as a program in rounds -/

open Verif.DdExchange Verif.Boundary Verif.DdChem

variable {N : Fin 3 → ℕ} {D : Type}

/-- Direction of a round. -/
def dirAt (t : ℕ) : Dir := dirs.getD t (0, 0)

/-- `exchangeAtoms` on one processor: the message is the list of atoms marked for exchange. For a
direction with one processor the code sends nothing; the model then sends to itself a message that
is ignored. -/
noncomputable def atomProgram (N : Fin 3 → ℕ) (D : Type) :
    Program (Proc N) (Local D) (List (Atom D)) where
  rounds := 6
  dest t p := dest (dirAt t) p
  source t p := source (dirAt t) p
  msg t _ s := s.atoms.filter fun a => a.plan.exchange (dirAt t).1 (dirAt t).2
  next t q s m :=
    let d := dirAt t
    if gridFlag N d.1 then
      let received := m.map fun a => a.move d.1 (shift d q)
      { atoms := (s.atoms.filter fun a => !a.plan.exchange d.1 d.2) ++ received
        send := fun d' => s.send d' ++
          (received.filter fun a => homeAfter N d.1 a.plan && a.plan.ghost d'.1 d'.2).map (·.data) }
    else
      { s with
        atoms := s.atoms.map fun a =>
          if a.plan.exchange d.1 d.2 then a.move d.1 (shift d q) else a }

/-- State of one processor during the exchange of ghosts. -/
structure GLocal (D : Type) where
  atoms : List (Atom D)
  send : Dir → List ℕ
  recv : Dir → List ℕ

/-- `exchangeGhosts` on one processor. -/
noncomputable def ghostProgram (N : Fin 3 → ℕ) (D : Type) :
    Program (Proc N) (GLocal D) (List (Atom D)) where
  rounds := 6
  dest t p := dest (dirAt t) p
  source t p := source (dirAt t) p
  msg t _ s := (s.send (dirAt t)).filterMap fun k => s.atoms[k]?
  next t q s m :=
    let d := dirAt t
    let new := m.map (receive N d (shift d q))
    { atoms := s.atoms ++ new
      recv := Function.update s.recv d (List.range' s.atoms.length new.length)
      send := fun d' =>
        if d.1 < d'.1 then
          s.send d' ++ (List.range' s.atoms.length new.length).filter fun k =>
            (new[k - s.atoms.length]?.map fun a => a.plan.ghost d'.1 d'.2).getD false
        else s.send d' }

theorem matched_dirs (d : Dir) (p q : Proc N) : dest d p = q ↔ source d q = p := by
  constructor
  · rintro rfl; exact source_dest d p
  · rintro rfl; exact dest_source d q

theorem lockstep_atoms (s : Proc N → Local D) :
    lockstep (atomProgram N D) s 6 = dirs.foldl (fun G d => exchangeDir d G) s := by
  have step : ∀ t, ∀ G : Proc N → Local D, (fun p => (atomProgram N D).next t p (G p)
      ((atomProgram N D).msg t ((atomProgram N D).source t p) (G ((atomProgram N D).source t p)))) =
      exchangeDir (dirAt t) G := by
    intro t G
    rfl
  change _ = exchangeDir (dirAt 5) (exchangeDir (dirAt 4) (exchangeDir (dirAt 3)
    (exchangeDir (dirAt 2) (exchangeDir (dirAt 1) (exchangeDir (dirAt 0) s)))))
  simp only [← step]
  rfl

/-- The per processor view of a state. -/
def view (G : GState N D) (q : Proc N) : GLocal D := ⟨G.atoms q, G.send q, G.recv q⟩

theorem lockstep_ghosts (G : GState N D) :
    lockstep (ghostProgram N D) (view G) 6 = view (dirs.foldl (fun G d => ghostDir d G) G) := by
  have step : ∀ t, ∀ G : GState N D, (fun p => (ghostProgram N D).next t p (view G p)
      ((ghostProgram N D).msg t ((ghostProgram N D).source t p)
        (view G ((ghostProgram N D).source t p)))) = view (ghostDir (dirAt t) G) := by
    intro t G
    rfl
  change _ = view (ghostDir (dirAt 5) (ghostDir (dirAt 4) (ghostDir (dirAt 3)
    (ghostDir (dirAt 2) (ghostDir (dirAt 1) (ghostDir (dirAt 0) G))))))
  simp only [← step]
  rfl

/-- **C16, all interleavings.** Every execution of `exchangeAtoms` by concurrent processors can be
continued until all have finished, never gets stuck, is finite, and ends in the state computed by
the model. -/
theorem C16_all_interleavings (slab : Vec) (G : Proc N → Local D) {n : ℕ}
    {c : Config (Proc N) (Local D) (List (Atom D))}
    (h : Steps (atomProgram N D) (start fun p => planAll slab p (G p)) n c) :
    n ≤ 12 * Fintype.card (Proc N) ∧
    (Finished (atomProgram N D) c → c.state = exchangeAtoms slab G) ∧
    (¬ Finished (atomProgram N D) c → ∃ c', Step (atomProgram N D) c c') := by
  have hA : Matched (atomProgram N D) := fun t p q => matched_dirs (dirAt t) p q
  refine ⟨async_bounded hA h, ?_, async_progress hA h⟩
  intro hf
  rw [(async_result hA h hf).1]
  exact lockstep_atoms _

/-- **C17, all interleavings.** The same for `exchangeGhosts`. -/
theorem C17_all_interleavings (atoms : Proc N → List (Atom D)) (send : Proc N → Dir → List ℕ)
    {n : ℕ} {c : Config (Proc N) (GLocal D) (List (Atom D))}
    (h : Steps (ghostProgram N D) (start fun p => ⟨atoms p, send p, fun _ => []⟩) n c) :
    n ≤ 12 * Fintype.card (Proc N) ∧
    (Finished (ghostProgram N D) c → c.state = view (exchangeGhosts atoms send)) ∧
    (¬ Finished (ghostProgram N D) c → ∃ c', Step (ghostProgram N D) c c') := by
  have hA : Matched (ghostProgram N D) := fun t p q => matched_dirs (dirAt t) p q
  refine ⟨async_bounded hA h, ?_, async_progress hA h⟩
  intro hf
  rw [(async_result hA h hf).1]
  exact lockstep_ghosts ⟨atoms, send, fun _ _ => []⟩

variable {V : Type} [AddCommGroup V]

/-- `update` on one processor; the state is the positions of its atoms. -/
def updateProgram (lat : Fin 3 → ℤ → V) (G : GState N D) : Program (Proc N) (ℕ → V) (List V) where
  rounds := 6
  dest t p := dest (dirAt t) p
  source t p := source (dirAt t) p
  msg t p X := (G.send p (dirAt t)).map X
  next t q X m :=
    let d := dirAt t
    let f := fun x => if shift d q ≠ 0 then x + lat d.1 (shift d q) else x
    if gridFlag N d.1 then setAll X (List.zip (G.recv q d) (m.map f))
    else setLoop f X (List.zip (G.recv q d) (G.send q d))

/-- Direction of a round of `reverseUpdate`. -/
def revAt (t : ℕ) : Dir := dirs.reverse.getD t (0, 0)

/-- `reverseUpdate` on one processor; source and destination are exchanged. -/
def reverseProgram (G : GState N D) : Program (Proc N) (ℕ → V) (List V) where
  rounds := 6
  dest t p := source (revAt t) p
  source t p := dest (revAt t) p
  msg t p F := (G.recv p (revAt t)).map F
  next t p F m :=
    let d := revAt t
    if gridFlag N d.1 then addAll F (List.zip (G.send p d) m)
    else addLoop F (List.zip (G.send p d) (G.recv p d))

theorem lockstep_update (lat : Fin 3 → ℤ → V) (G : GState N D) (X : Proc N → ℕ → V) :
    lockstep (updateProgram lat G) X 6 = update lat G X := by
  have step : ∀ t, ∀ X : Proc N → ℕ → V, (fun p => (updateProgram lat G).next t p (X p)
      ((updateProgram lat G).msg t ((updateProgram lat G).source t p)
        (X ((updateProgram lat G).source t p)))) = updateDir lat G (dirAt t) X := by
    intro t X
    rfl
  change _ = updateDir lat G (dirAt 5) (updateDir lat G (dirAt 4) (updateDir lat G (dirAt 3)
    (updateDir lat G (dirAt 2) (updateDir lat G (dirAt 1) (updateDir lat G (dirAt 0) X)))))
  simp only [← step]
  rfl

theorem lockstep_reverse (G : GState N D) (F : Proc N → ℕ → V) :
    lockstep (reverseProgram (V := V) G) F 6 = reverseUpdate G F := by
  have step : ∀ t, ∀ F : Proc N → ℕ → V, (fun p => (reverseProgram (V := V) G).next t p (F p)
      ((reverseProgram (V := V) G).msg t ((reverseProgram (V := V) G).source t p)
        (F ((reverseProgram (V := V) G).source t p)))) = reverseDir G (revAt t) F := by
    intro t F
    rfl
  change _ = reverseDir G (revAt 5) (reverseDir G (revAt 4) (reverseDir G (revAt 3)
    (reverseDir G (revAt 2) (reverseDir G (revAt 1) (reverseDir G (revAt 0) F)))))
  simp only [← step]
  rfl

/-- **C18, all interleavings.** The same for `update` and `reverseUpdate`. -/
theorem C18_all_interleavings (lat : Fin 3 → ℤ → V) (G : GState N D) (X F : Proc N → ℕ → V) {n : ℕ}
    {c : Config (Proc N) (ℕ → V) (List V)} :
    (Steps (updateProgram lat G) (start X) n c →
      n ≤ 12 * Fintype.card (Proc N) ∧
      (Finished (updateProgram lat G) c → c.state = update lat G X) ∧
      (¬ Finished (updateProgram lat G) c → ∃ c', Step (updateProgram lat G) c c')) ∧
    (Steps (reverseProgram G) (start F) n c →
      n ≤ 12 * Fintype.card (Proc N) ∧
      (Finished (reverseProgram G) c → c.state = reverseUpdate G F) ∧
      (¬ Finished (reverseProgram G) c → ∃ c', Step (reverseProgram G) c c')) := by
  have hA : Matched (updateProgram lat G) := fun t p q => matched_dirs (dirAt t) p q
  have hB : Matched (reverseProgram (V := V) G) := fun t p q => by
    constructor
    · intro h; exact (matched_dirs (revAt t) q p).2 h
    · intro h; exact (matched_dirs (revAt t) q p).1 h
  refine ⟨fun h => ⟨async_bounded hA h, ?_, async_progress hA h⟩,
    fun h => ⟨async_bounded hB h, ?_, async_progress hB h⟩⟩
  · intro hf
    rw [(async_result hA h hf).1]
    exact lockstep_update lat G X
  · intro hf
    rw [(async_result hB h hf).1]
    exact lockstep_reverse G F

/-- Executions exist: the first processor to act sends its message. -/
example (slab : Vec) (G : Proc N → Local D) (p : Proc N) :
    ∃ c, Steps (atomProgram N D) (start fun p => planAll slab p (G p)) 1 c ∧ c.sent p = 1 :=
  ⟨_, Steps.tail (Steps.refl _) (Step.send _ p rfl (by decide : 0 < 6)), by simp [start]⟩

end Verif.DdExchange.Async
