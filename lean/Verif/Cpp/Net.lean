/-
Processes that exchange messages.

A process is the sequence of its sends and receives; what it does next may depend
on what it received.  Channels are identified by source, destination and tag, and
keep messages in order.  Two semantics:

* `Step`: a send is buffered and never waits (also `Isend` followed by `Wait`);
* `SyncStep`: a send waits for the matching receive (allowed by the MPI standard
  for the standard mode of sending).

For the first it is shown that the order in which processes run does not matter.
-/
import Mathlib.Logic.Function.Basic
import Mathlib.Data.List.Basic
import Mathlib.Tactic.Basic

set_option autoImplicit false

namespace Verif.Cpp.Net

variable {P M R : Type} [DecidableEq P]

/-- A process with a result. -/
inductive Proc (P M R : Type)
  | done (r : R)
  | send (dst : P) (tag : ℕ) (m : M) (k : Proc P M R)
  | recv (src : P) (tag : ℕ) (k : M → Proc P M R)

/-- State of all processes and channels. -/
structure Conf (P M R : Type) where
  proc : P → Proc P M R
  chan : P → P → ℕ → List M

/-- Contents of channels after sending. -/
def push (ch : P → P → ℕ → List M) (a b : P) (t : ℕ) (m : M) : P → P → ℕ → List M :=
  fun x y s => if x = a ∧ y = b ∧ s = t then ch x y s ++ [m] else ch x y s

/-- Contents of channels after receiving. -/
def pop (ch : P → P → ℕ → List M) (a b : P) (t : ℕ) : P → P → ℕ → List M :=
  fun x y s => if x = a ∧ y = b ∧ s = t then (ch x y s).tail else ch x y s

/-- The next step of a process. -/
inductive StepOf : P → Conf P M R → Conf P M R → Prop
  | send (c : Conf P M R) (p dst : P) (tag : ℕ) (m : M) (k : Proc P M R)
      (h : c.proc p = .send dst tag m k) :
      StepOf p c ⟨Function.update c.proc p k, push c.chan p dst tag m⟩
  | recv (c : Conf P M R) (p src : P) (tag : ℕ) (k : M → Proc P M R) (m : M) (l : List M)
      (h : c.proc p = .recv src tag k) (hm : c.chan src p tag = m :: l) :
      StepOf p c ⟨Function.update c.proc p (k m), pop c.chan src p tag⟩

/-- A step of some process. -/
def Step (c d : Conf P M R) : Prop := ∃ p, StepOf p c d

/-- A number of steps. -/
inductive Steps : ℕ → Conf P M R → Conf P M R → Prop
  | refl (c : Conf P M R) : Steps 0 c c
  | head {n : ℕ} {c d e : Conf P M R} : Step c d → Steps n d e → Steps (n + 1) c e

theorem Steps.trans {n m : ℕ} {c d e : Conf P M R} (h1 : Steps n c d) (h2 : Steps m d e) :
    Steps (n + m) c e := by
  induction h1 with
  | refl c => rw [Nat.zero_add]; exact h2
  | head hs _ ih => rw [Nat.add_right_comm]; exact Steps.head hs (ih h2)

theorem Steps.one {c d : Conf P M R} (h : Step c d) : Steps 1 c d := Steps.head h (Steps.refl d)

/-- All processes have ended. -/
def Ended (c : Conf P M R) : Prop := ∀ p, ∃ r, c.proc p = .done r

theorem Ended.no_step {c d : Conf P M R} (h : Ended c) (hs : Step c d) : False := by
  obtain ⟨p, hs⟩ := hs
  obtain ⟨r, hr⟩ := h p
  cases hs with
  | send _ _ dst tag m k hk => rw [hr] at hk; exact absurd hk (by simp)
  | recv _ _ src tag k m l hk hm => rw [hr] at hk; exact absurd hk (by simp)

theorem StepOf.unique {p : P} {c d e : Conf P M R} (h1 : StepOf p c d) (h2 : StepOf p c e) :
    d = e := by
  cases h1 with
  | send _ _ dst tag m k hk =>
    cases h2 with
    | send _ _ dst' tag' m' k' hk' =>
      rw [hk] at hk'
      injection hk' with e1 e2 e3 e4
      subst e1; subst e2; subst e3; subst e4
      rfl
    | recv _ _ src' tag' k' m' l' hk' hm' => rw [hk] at hk'; exact absurd hk' (by simp)
  | recv _ _ src tag k m l hk hm =>
    cases h2 with
    | send _ _ dst' tag' m' k' hk' => rw [hk] at hk'; exact absurd hk' (by simp)
    | recv _ _ src' tag' k' m' l' hk' hm' =>
      rw [hk] at hk'
      injection hk' with e1 e2 e3
      subst e1; subst e2; subst e3
      rw [hm] at hm'
      injection hm' with e4 e5
      subst e4
      rfl

theorem push_push_comm (ch : P → P → ℕ → List M) {a a' : P} (hne : a ≠ a') (b b' : P) (t t' : ℕ)
    (m m' : M) : push (push ch a b t m) a' b' t' m' = push (push ch a' b' t' m') a b t m := by
  funext x y s
  unfold push
  by_cases h1 : x = a ∧ y = b ∧ s = t
  · have h2 : ¬ (x = a' ∧ y = b' ∧ s = t') := fun h => hne (h1.1.symm.trans h.1)
    rw [if_neg h2, if_pos h1, if_pos h1, if_neg h2]
  · by_cases h2 : x = a' ∧ y = b' ∧ s = t'
    · rw [if_pos h2, if_neg h1, if_neg h1, if_pos h2]
    · rw [if_neg h2, if_neg h1, if_neg h1, if_neg h2]

theorem pop_pop_comm (ch : P → P → ℕ → List M) (a a' : P) {b b' : P} (hne : b ≠ b') (t t' : ℕ) :
    pop (pop ch a b t) a' b' t' = pop (pop ch a' b' t') a b t := by
  funext x y s
  unfold pop
  by_cases h1 : x = a ∧ y = b ∧ s = t
  · have h2 : ¬ (x = a' ∧ y = b' ∧ s = t') := fun h => hne (h1.2.1.symm.trans h.2.1)
    rw [if_neg h2, if_pos h1, if_pos h1, if_neg h2]
  · by_cases h2 : x = a' ∧ y = b' ∧ s = t'
    · rw [if_pos h2, if_neg h1, if_neg h1, if_pos h2]
    · rw [if_neg h2, if_neg h1, if_neg h1, if_neg h2]

theorem push_pop_comm (ch : P → P → ℕ → List M) (a b : P) (t : ℕ) (m : M) (a' b' : P) (t' : ℕ)
    (hne : ch a' b' t' ≠ []) :
    pop (push ch a b t m) a' b' t' = push (pop ch a' b' t') a b t m := by
  funext x y s
  unfold push pop
  by_cases h2 : x = a' ∧ y = b' ∧ s = t'
  · obtain ⟨rfl, rfl, rfl⟩ := h2
    simp only [true_and, and_self, if_true]
    by_cases h1 : x = a ∧ y = b ∧ s = t
    · rw [if_pos h1, if_pos h1, List.tail_append_of_ne_nil hne]
    · rw [if_neg h1, if_neg h1]
  · rw [if_neg h2, if_neg h2]

theorem push_head {ch : P → P → ℕ → List M} (a b : P) (t : ℕ) (m : M) {a' b' : P} {t' : ℕ}
    {m' : M} {l : List M} (h : ch a' b' t' = m' :: l) :
    ∃ l', push ch a b t m a' b' t' = m' :: l' := by
  unfold push
  rw [h]
  split
  · exact ⟨l ++ [m], rfl⟩
  · exact ⟨l, rfl⟩

theorem pop_head {ch : P → P → ℕ → List M} (a b : P) (t : ℕ) {a' b' : P} {t' : ℕ}
    {m' : M} {l : List M} (h : ch a' b' t' = m' :: l) (hne : b' ≠ b) :
    pop ch a b t a' b' t' = m' :: l := by
  unfold pop
  rw [if_neg (fun hh => hne hh.2.1), h]

/-- Steps of different processes commute. -/
theorem StepOf.diamond {p q : P} (hne : p ≠ q) {c d e : Conf P M R} (h1 : StepOf p c d)
    (h2 : StepOf q c e) : ∃ f, StepOf q d f ∧ StepOf p e f := by
  cases h1 with
  | send _ _ dst tag m k hk =>
    cases h2 with
    | send _ _ dst' tag' m' k' hk' =>
      refine ⟨_, StepOf.send _ q dst' tag' m' k' (by simpa [Function.update_of_ne hne.symm]), ?_⟩
      have := StepOf.send (⟨Function.update c.proc q k', push c.chan q dst' tag' m'⟩ : Conf P M R)
        p dst tag m k (by simpa [Function.update_of_ne hne])
      rw [Function.update_comm hne.symm, push_push_comm _ hne.symm] at this
      exact this
    | recv _ _ src' tag' k' m' l' hk' hm' =>
      obtain ⟨l2, hl2⟩ := push_head (ch := c.chan) p dst tag m hm'
      refine ⟨_, StepOf.recv _ q src' tag' k' m' l2 (by simpa [Function.update_of_ne hne.symm]) hl2,
        ?_⟩
      have := StepOf.send (⟨Function.update c.proc q (k' m'), pop c.chan src' q tag'⟩ : Conf P M R)
        p dst tag m k (by simpa [Function.update_of_ne hne])
      rw [Function.update_comm hne.symm] at this
      rw [push_pop_comm _ _ _ _ _ _ _ _ (by rw [hm']; simp)]
      exact this
  | recv _ _ src tag k m l hk hm =>
    cases h2 with
    | send _ _ dst' tag' m' k' hk' =>
      obtain ⟨l2, hl2⟩ := push_head (ch := c.chan) q dst' tag' m' hm
      refine ⟨_, StepOf.send _ q dst' tag' m' k' (by simpa [Function.update_of_ne hne.symm]), ?_⟩
      have := StepOf.recv (⟨Function.update c.proc q k', push c.chan q dst' tag' m'⟩ : Conf P M R)
        p src tag k m l2 (by simpa [Function.update_of_ne hne]) hl2
      rw [Function.update_comm hne.symm, push_pop_comm _ _ _ _ _ _ _ _ (by rw [hm]; simp)] at this
      exact this
    | recv _ _ src' tag' k' m' l' hk' hm' =>
      refine ⟨_, StepOf.recv _ q src' tag' k' m' l' (by simpa [Function.update_of_ne hne.symm])
        (pop_head _ _ _ hm' hne.symm), ?_⟩
      have := StepOf.recv (⟨Function.update c.proc q (k' m'), pop c.chan src' q tag'⟩ : Conf P M R)
        p src tag k m l (by simpa [Function.update_of_ne hne]) (pop_head _ _ _ hm hne)
      rw [Function.update_comm hne.symm, pop_pop_comm _ _ _ hne.symm] at this
      exact this

theorem Step.diamond {c d e : Conf P M R} (h1 : Step c d) (h2 : Step c e) :
    d = e ∨ ∃ f, Step d f ∧ Step e f := by
  obtain ⟨p, h1⟩ := h1
  obtain ⟨q, h2⟩ := h2
  by_cases h : p = q
  · subst h; exact Or.inl (h1.unique h2)
  · obtain ⟨f, h3, h4⟩ := h1.diamond h h2
    exact Or.inr ⟨f, ⟨q, h3⟩, ⟨p, h4⟩⟩

/-- If one execution ends, then after any step the rest can still be executed, with
the same end, in one step less. -/
theorem Steps.after {n : ℕ} {c e d : Conf P M R} (h : Steps n c e) (he : Ended e)
    (hd : Step c d) : ∃ m, n = m + 1 ∧ Steps m d e := by
  induction n generalizing c d with
  | zero =>
    cases h with
    | refl => exact (he.no_step hd).elim
  | succ n ih =>
    cases h with
    | head hs hr =>
      rcases hs.diamond hd with rfl | ⟨f, hf1, hf2⟩
      · exact ⟨n, rfl, hr⟩
      · obtain ⟨m, rfl, hm⟩ := ih hr hf1
        exact ⟨m + 1, rfl, Steps.head hf2 hm⟩

/-- If some execution ends, then every execution, however the processes are
scheduled, has at most as many steps and can be continued to the same end. -/
theorem Steps.confluent {n m : ℕ} {c e d : Conf P M R} (h : Steps n c e) (he : Ended e)
    (hd : Steps m c d) : m ≤ n ∧ Steps (n - m) d e := by
  induction hd generalizing n with
  | refl c => exact ⟨Nat.zero_le _, h⟩
  | head hs _ ih =>
    obtain ⟨n', rfl, h'⟩ := h.after he hs
    obtain ⟨i1, i2⟩ := ih h'
    exact ⟨by omega, by rw [Nat.add_sub_add_right]; exact i2⟩

/-- No process is stuck: an execution that cannot be continued has reached the
end. -/
theorem Steps.stuck_ended {n m : ℕ} {c e d : Conf P M R} (h : Steps n c e) (he : Ended e)
    (hd : Steps m c d) (hstuck : ∀ f, ¬ Step d f) : d = e := by
  obtain ⟨_, h2⟩ := h.confluent he hd
  cases h2' : n - m with
  | zero =>
    rw [h2'] at h2
    cases h2
    rfl
  | succ k =>
    rw [h2'] at h2
    cases h2 with
    | head hs _ => exact (hstuck _ hs).elim

/-! ### Executing one step of several processes -/

/-- Channels after each process `p` of a set has sent `m p` to `d p`. -/
def pushAll (ch : P → P → ℕ → List M) (S : P → Prop) [DecidablePred S] (d : P → P) (t : ℕ)
    (m : P → M) : P → P → ℕ → List M :=
  fun x y s => if S x ∧ y = d x ∧ s = t then ch x y s ++ [m x] else ch x y s

/-- Channels after each process `p` of a set has received from `src p`. -/
def popAll (ch : P → P → ℕ → List M) (S : P → Prop) [DecidablePred S] (src : P → P) (t : ℕ) :
    P → P → ℕ → List M :=
  fun x y s => if S y ∧ x = src y ∧ s = t then (ch x y s).tail else ch x y s

/-- Processes of a list `l` send. -/
theorem steps_send (l : List P) (hl : l.Nodup) (c : Conf P M R) (d : P → P) (t : ℕ) (m : P → M)
    (k : P → Proc P M R) (h : ∀ p ∈ l, c.proc p = .send (d p) t (m p) (k p)) :
    ∃ n, Steps n c ⟨fun p => if p ∈ l then k p else c.proc p,
      pushAll c.chan (· ∈ l) d t m⟩ := by
  induction l generalizing c with
  | nil =>
    refine ⟨0, ?_⟩
    have : (⟨fun p => if p ∈ ([] : List P) then k p else c.proc p,
        pushAll c.chan (· ∈ ([] : List P)) d t m⟩ : Conf P M R) = c := by
      have h1 : pushAll c.chan (· ∈ ([] : List P)) d t m = c.chan := by funext x y s; simp [pushAll]
      rw [h1]; simp
    rw [this]; exact Steps.refl c
  | cons a l ih =>
    rw [List.nodup_cons] at hl
    obtain ⟨n, hn⟩ := ih hl.2 ⟨Function.update c.proc a (k a), push c.chan a (d a) t (m a)⟩ (by
      intro p hp
      have : p ≠ a := fun e => hl.1 (e ▸ hp)
      simp only [Function.update_of_ne this]
      exact h p (by simp [hp]))
    refine ⟨n + 1, Steps.head ⟨a, StepOf.send c a (d a) t (m a) (k a) (h a (by simp))⟩ ?_⟩
    convert hn using 2
    · funext p
      by_cases hpl : p ∈ l
      · simp [hpl]
      · by_cases hpa : p = a
        · subst hpa; simp [hpl]
        · simp [hpl, hpa]
    · funext x y s
      simp only [pushAll, push, List.mem_cons]
      by_cases hx : x = a
      · subst hx
        simp only [hl.1, or_false, true_and, false_and, if_false]
      · simp [hx]

/-- Processes of a list `l` receive. -/
theorem steps_recv (l : List P) (hl : l.Nodup) (c : Conf P M R) (src : P → P) (t : ℕ) (m : P → M)
    (k : P → M → Proc P M R) (h : ∀ p ∈ l, c.proc p = .recv (src p) t (k p))
    (hm : ∀ p ∈ l, ∃ r, c.chan (src p) p t = m p :: r) :
    ∃ n, Steps n c ⟨fun p => if p ∈ l then k p (m p) else c.proc p,
      popAll c.chan (· ∈ l) src t⟩ := by
  induction l generalizing c with
  | nil =>
    refine ⟨0, ?_⟩
    have : (⟨fun p => if p ∈ ([] : List P) then k p (m p) else c.proc p,
        popAll c.chan (· ∈ ([] : List P)) src t⟩ : Conf P M R) = c := by
      have h1 : popAll c.chan (· ∈ ([] : List P)) src t = c.chan := by funext x y s; simp [popAll]
      rw [h1]; simp
    rw [this]; exact Steps.refl c
  | cons a l ih =>
    rw [List.nodup_cons] at hl
    obtain ⟨r, hr⟩ := hm a (by simp)
    obtain ⟨n, hn⟩ := ih hl.2 ⟨Function.update c.proc a (k a (m a)), pop c.chan (src a) a t⟩
      (by
        intro p hp
        have : p ≠ a := fun e => hl.1 (e ▸ hp)
        simp only [Function.update_of_ne this]
        exact h p (by simp [hp]))
      (by
        intro p hp
        have : p ≠ a := fun e => hl.1 (e ▸ hp)
        obtain ⟨r', hr'⟩ := hm p (by simp [hp])
        exact ⟨r', pop_head _ _ _ hr' this⟩)
    refine ⟨n + 1, Steps.head ⟨a, StepOf.recv c a (src a) t (k a) (m a) r (h a (by simp)) hr⟩ ?_⟩
    convert hn using 2
    · funext p
      by_cases hpl : p ∈ l
      · simp [hpl]
      · by_cases hpa : p = a
        · subst hpa; simp [hpl]
        · simp [hpl, hpa]
    · funext x y s
      simp only [popAll, pop, List.mem_cons]
      by_cases hy : y = a
      · subst hy
        simp only [hl.1, or_false, true_and, false_and, if_false]
      · simp [hy]

/-! ### Sends that wait -/

/-- A send and the matching receive happen together. -/
inductive SyncStep : Conf P M R → Conf P M R → Prop
  | comm (c : Conf P M R) (p q : P) (tag : ℕ) (m : M) (k : Proc P M R) (k' : M → Proc P M R)
      (hne : p ≠ q) (hp : c.proc p = .send q tag m k) (hq : c.proc q = .recv p tag k') :
      SyncStep c ⟨Function.update (Function.update c.proc p k) q (k' m), c.chan⟩

/-- A number of steps with waiting sends. -/
inductive SyncSteps : ℕ → Conf P M R → Conf P M R → Prop
  | refl (c : Conf P M R) : SyncSteps 0 c c
  | head {n : ℕ} {c d e : Conf P M R} : SyncStep c d → SyncSteps n d e → SyncSteps (n + 1) c e

theorem SyncSteps.trans {n m : ℕ} {c d e : Conf P M R} (h1 : SyncSteps n c d)
    (h2 : SyncSteps m d e) : SyncSteps (n + m) c e := by
  induction h1 with
  | refl c => rw [Nat.zero_add]; exact h2
  | head hs _ ih => rw [Nat.add_right_comm]; exact SyncSteps.head hs (ih h2)

theorem SyncSteps.one {c d : Conf P M R} (h : SyncStep c d) : SyncSteps 1 c d :=
  SyncSteps.head h (SyncSteps.refl d)

/-- Two possible communications are the same or commute. -/
theorem SyncStep.diamond {c d e : Conf P M R} (h1 : SyncStep c d) (h2 : SyncStep c e) :
    d = e ∨ ∃ f, SyncStep d f ∧ SyncStep e f := by
  cases h1 with
  | comm p q tag m k k' hne hp hq =>
    cases h2 with
    | comm p' q' tag' m' l l' hne' hp' hq' =>
      by_cases hpp : p = p'
      · subst hpp
        rw [hp] at hp'
        injection hp' with e1 e2 e3 e4
        subst e1; subst e2; subst e3; subst e4
        rw [hq] at hq'
        injection hq' with e5 e6 e7
        subst e7
        exact Or.inl rfl
      · have hqq : q ≠ q' := by
          intro h
          subst h
          rw [hq] at hq'
          injection hq' with e5 e6 e7
          exact hpp e5
        have hpq : p ≠ q' := by
          intro h; subst h; rw [hp] at hq'; exact absurd hq' (by simp)
        have hqp : q ≠ p' := by
          intro h; subst h; rw [hq] at hp'; exact absurd hp' (by simp)
        refine Or.inr ⟨⟨Function.update (Function.update (Function.update (Function.update c.proc
          p k) q (k' m)) p' l) q' (l' m'), c.chan⟩, ?_, ?_⟩
        · refine SyncStep.comm _ p' q' tag' m' l l' hne' ?_ ?_
          · simp only [Function.update_of_ne (Ne.symm hqp), Function.update_of_ne (Ne.symm hpp), hp']
          · simp only [Function.update_of_ne (Ne.symm hqq), Function.update_of_ne (Ne.symm hpq), hq']
        · have := SyncStep.comm (⟨Function.update (Function.update c.proc p' l) q' (l' m'), c.chan⟩ :
            Conf P M R) p q tag m k k' hne
            (by simp only [Function.update_of_ne hpq, Function.update_of_ne hpp, hp])
            (by simp only [Function.update_of_ne hqq, Function.update_of_ne hqp, hq])
          convert this using 2
          rw [Function.update_comm hqp, Function.update_comm hpp, Function.update_comm hqq,
            Function.update_comm hpq]

/-- If one execution gets stuck, every execution can be continued to the same state, in
which it is stuck. -/
theorem SyncSteps.after {n : ℕ} {c e d : Conf P M R} (h : SyncSteps n c e)
    (he : ∀ f, ¬ SyncStep e f) (hd : SyncStep c d) : ∃ m, n = m + 1 ∧ SyncSteps m d e := by
  induction n generalizing c d with
  | zero =>
    cases h with
    | refl => exact (he _ hd).elim
  | succ n ih =>
    cases h with
    | head hs hr =>
      rcases hs.diamond hd with rfl | ⟨f, hf1, hf2⟩
      · exact ⟨n, rfl, hr⟩
      · obtain ⟨m, rfl, hm⟩ := ih hr hf1
        exact ⟨m + 1, rfl, SyncSteps.head hf2 hm⟩

theorem SyncSteps.confluent {n m : ℕ} {c e d : Conf P M R} (h : SyncSteps n c e)
    (he : ∀ f, ¬ SyncStep e f) (hd : SyncSteps m c d) : m ≤ n ∧ SyncSteps (n - m) d e := by
  induction hd generalizing n with
  | refl c => exact ⟨Nat.zero_le _, h⟩
  | head hs _ ih =>
    obtain ⟨n', rfl, h'⟩ := h.after he hs
    obtain ⟨i1, i2⟩ := ih h'
    exact ⟨by omega, by rw [Nat.add_sub_add_right]; exact i2⟩

theorem Ended.no_sync {c d : Conf P M R} (h : Ended c) (hs : SyncStep c d) : False := by
  cases hs with
  | comm p q tag m k k' hne hp hq =>
    obtain ⟨r, hr⟩ := h p
    rw [hr] at hp
    exact absurd hp (by simp)

/-- If one execution gets stuck before the end, then none reaches the end. -/
theorem SyncSteps.deadlock {n m : ℕ} {c e d : Conf P M R} (h : SyncSteps n c e)
    (he : ∀ f, ¬ SyncStep e f) (hne : ¬ Ended e) (hd : SyncSteps m c d) : ¬ Ended d := by
  intro hend
  obtain ⟨_, h2⟩ := h.confluent he hd
  cases hk : n - m with
  | zero =>
    rw [hk] at h2
    cases h2
    exact hne hend
  | succ k =>
    rw [hk] at h2
    cases h2 with
    | head hs _ => exact hend.no_sync hs

end Verif.Cpp.Net
