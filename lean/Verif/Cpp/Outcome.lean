/-
Outcomes of C++ statements, shared by the later areas of the model.

A statement finishes normally (`ok`), raises `Util::Exception` through
`UTIL_THROW` or `UTIL_CHECK` (`throw`), or violates a precondition that is
only asserted in debugging builds or is undefined behaviour of the language
(`ub`).  Sequencing stops at the first abnormal outcome.
-/
import Mathlib.Tactic.Basic
import Mathlib.Data.List.Basic

set_option autoImplicit false

namespace Verif.Cpp

universe u v

/-- Outcome of a statement.  `throw`: exception; `ub`: failed assertion or
undefined behaviour. -/
inductive Out (α : Type u) where
  | ok (a : α)
  | throw
  | ub
  deriving DecidableEq

namespace Out

variable {α : Type u} {β : Type u}

/-- Sequencing. -/
def bind : Out α → (α → Out β) → Out β
  | ok a, f => f a
  | throw, _ => throw
  | ub, _ => ub

instance : Monad Out where
  pure := ok
  bind := bind

@[simp] theorem pure_eq (a : α) : (pure a : Out α) = ok a := rfl
@[simp] theorem ok_bind (a : α) (f : α → Out β) : (ok a >>= f) = f a := rfl
@[simp] theorem throw_bind (f : α → Out β) : ((throw : Out α) >>= f) = throw := rfl
@[simp] theorem ub_bind (f : α → Out β) : ((ub : Out α) >>= f) = ub := rfl

theorem bind_eq_ok {x : Out α} {f : α → Out β} {b : β} :
    (x >>= f) = ok b ↔ ∃ a, x = ok a ∧ f a = ok b := by
  cases x <;> simp

/-- `UTIL_CHECK(p)`, or `if (!p) UTIL_THROW`. -/
def check (p : Prop) [Decidable p] : Out Unit := if p then ok () else throw

/-- `assert(p)`; also an array access whose index must satisfy `p`. -/
def require (p : Prop) [Decidable p] : Out Unit := if p then ok () else ub

@[simp] theorem check_eq_ok {p : Prop} [Decidable p] {u : Unit} :
    check p = ok u ↔ p := by
  unfold check; split <;> simp_all

@[simp] theorem require_eq_ok {p : Prop} [Decidable p] {u : Unit} :
    require p = ok u ↔ p := by
  unfold require; split <;> simp_all

theorem check_true {p : Prop} [Decidable p] (h : p) : check p = ok () := by
  simp [check, h]

theorem check_false {p : Prop} [Decidable p] (h : ¬ p) : check p = throw := by
  simp [check, h]

theorem require_true {p : Prop} [Decidable p] (h : p) : require p = ok () := by
  simp [require, h]

theorem require_false {p : Prop} [Decidable p] (h : ¬ p) : require p = ub := by
  simp [require, h]

/-- A counted loop or a loop over an array: `for (a in l) s = f(s, a)`. -/
def loop {σ : Type u} {ι : Type v} (f : σ → ι → Out σ) : List ι → σ → Out σ
  | [], s => ok s
  | a :: l, s => f s a >>= loop f l

@[simp] theorem loop_nil {σ : Type u} {ι : Type v} (f : σ → ι → Out σ) (s : σ) :
    loop f [] s = ok s := rfl

@[simp] theorem loop_cons {σ : Type u} {ι : Type v} (f : σ → ι → Out σ) (a : ι)
    (l : List ι) (s : σ) : loop f (a :: l) s = (f s a >>= loop f l) := rfl

theorem loop_append {σ : Type u} {ι : Type v} (f : σ → ι → Out σ) (l m : List ι)
    (s : σ) : loop f (l ++ m) s = (loop f l s >>= loop f m) := by
  induction l generalizing s with
  | nil => simp
  | cons a l ih =>
    simp only [List.cons_append, loop_cons]
    cases f s a <;> simp [ih]

/-- A loop whose body only checks: it succeeds exactly if every check does. -/
theorem loop_unit_ok {ι : Type v} (f : ι → Out Unit) (l : List ι) :
    loop (fun (_ : Unit) a => f a) l () = ok () ↔ ∀ a ∈ l, f a = ok () := by
  induction l with
  | nil => simp
  | cons a l ih =>
    simp only [loop_cons, bind_eq_ok, List.mem_cons, forall_eq_or_imp]
    constructor
    · rintro ⟨_, h, h2⟩
      exact ⟨h, ih.mp h2⟩
    · rintro ⟨h, h2⟩
      exact ⟨(), h, ih.mpr h2⟩

/-- Counted loops establish an invariant. -/
theorem loop_range_ok {σ : Type} (P : ℕ → σ → Prop) (f : σ → ℕ → Out σ) (n : ℕ) (s : σ)
    (h0 : P 0 s)
    (hs : ∀ i < n, ∀ s, P i s → ∃ s', f s i = ok s' ∧ P (i + 1) s') :
    ∃ s', loop f (List.range n) s = ok s' ∧ P n s' := by
  induction n with
  | zero => exact ⟨s, rfl, h0⟩
  | succ n ih =>
    obtain ⟨s1, h1, hP⟩ := ih fun i hi => hs i (by omega)
    obtain ⟨s2, h2, hP2⟩ := hs n (by omega) s1 hP
    refine ⟨s2, ?_, hP2⟩
    rw [List.range_succ, loop_append, h1, ok_bind]
    simp only [loop, h2, ok_bind]

end Out

end Verif.Cpp
