/-
Outcomes of programs that may run forever, and `while` loops with their exact
semantics (no bound on the number of iterations).
-/
import Mathlib.Tactic.Push
import Mathlib.Order.Basic
import Mathlib.Data.Nat.Find

set_option autoImplicit false

namespace Verif.Generate

universe u

/-- Outcome of a piece of code: a result, an exception, undefined behaviour, or
no end. -/
inductive Run (α : Type u) where
  | ok (a : α)
  | throw
  | ub
  | hang

namespace Run

variable {α β σ : Type u}

/-- Sequencing. -/
def bind : Run α → (α → Run β) → Run β
  | ok a, f => f a
  | throw, _ => throw
  | ub, _ => ub
  | hang, _ => hang

instance : Monad Run where
  pure := ok
  bind := bind

@[simp] theorem pure_eq (a : α) : (pure a : Run α) = ok a := rfl
@[simp] theorem ok_bind (a : α) (f : α → Run β) : (ok a >>= f) = f a := rfl
@[simp] theorem throw_bind (f : α → Run β) : ((throw : Run α) >>= f) = throw := rfl
@[simp] theorem ub_bind (f : α → Run β) : ((ub : Run α) >>= f) = ub := rfl
@[simp] theorem hang_bind (f : α → Run β) : ((hang : Run α) >>= f) = hang := rfl

/-- `UTIL_CHECK(p)`. -/
def check (p : Prop) [Decidable p] : Run PUnit.{u+1} := if p then ok ⟨⟩ else throw

/-- `n` tests of the condition are not enough: reported as `hang`. -/
def whileN (cond : σ → Bool) (body : σ → Run σ) : ℕ → σ → Run σ
  | 0, _ => hang
  | n + 1, s => if cond s then body s >>= whileN cond body n else ok s

open Classical in
/-- `while (cond) body`: the outcome reached after some number of iterations; if
there is none the loop runs forever. -/
noncomputable def whileLoop (cond : σ → Bool) (body : σ → Run σ) (s : σ) : Run σ :=
  if h : ∃ n, whileN cond body n s ≠ hang then whileN cond body (Nat.find h) s else hang

/-! ### Meaning of the loop -/

theorem whileN_mono {cond : σ → Bool} {body : σ → Run σ} {n : ℕ} {s : σ}
    (h : whileN cond body n s ≠ hang) (m : ℕ) (hm : n ≤ m) :
    whileN cond body m s = whileN cond body n s := by
  induction n generalizing m s with
  | zero => exact absurd rfl h
  | succ n ih =>
    obtain ⟨m, rfl⟩ : ∃ k, m = k + 1 := ⟨m - 1, by omega⟩
    simp only [whileN] at h ⊢
    split
    · rename_i hc
      rw [if_pos hc] at h
      cases hb : body s with
      | ok a =>
        rw [hb] at h
        simp only [ok_bind] at h ⊢
        exact ih h m (by omega)
      | throw => rfl
      | ub => rfl
      | hang => rfl
    · rfl

theorem whileLoop_of {cond : σ → Bool} {body : σ → Run σ} {n : ℕ} {s : σ}
    (h : whileN cond body n s ≠ hang) : whileLoop cond body s = whileN cond body n s := by
  classical
  have hex : ∃ n, whileN cond body n s ≠ hang := ⟨n, h⟩
  unfold whileLoop
  rw [dif_pos hex]
  exact (whileN_mono (Nat.find_spec hex) n (Nat.find_min' hex h)).symm

theorem whileLoop_hang_iff {cond : σ → Bool} {body : σ → Run σ} {s : σ} :
    whileLoop cond body s = hang ↔ ∀ n, whileN cond body n s = hang := by
  constructor
  · intro h n
    by_contra hn
    rw [whileLoop_of hn] at h
    exact hn h
  · intro h
    unfold whileLoop
    rw [dif_neg (by push Not; exact h)]

/-- A loop is a test, followed by the body and the loop. -/
theorem whileLoop_eq (cond : σ → Bool) (body : σ → Run σ) (s : σ) :
    whileLoop cond body s = if cond s then body s >>= whileLoop cond body else ok s := by
  by_cases hc : cond s
  · rw [if_pos hc]
    have hstep : ∀ n, whileN cond body (n + 1) s = body s >>= whileN cond body n := fun n => by
      simp only [whileN, if_pos hc]
    cases hb : body s with
    | ok a =>
      simp only [ok_bind]
      by_cases h : whileLoop cond body a = hang
      · rw [h, whileLoop_hang_iff]
        rw [whileLoop_hang_iff] at h
        intro n
        cases n with
        | zero => rfl
        | succ n => rw [hstep, hb, ok_bind]; exact h n
      · rw [whileLoop_hang_iff] at h
        push Not at h
        obtain ⟨n, hn⟩ := h
        have e : whileN cond body (n + 1) s = whileN cond body n a := by rw [hstep, hb, ok_bind]
        rw [whileLoop_of hn, whileLoop_of (n := n + 1) (by rw [e]; exact hn), e]
    | throw =>
      rw [whileLoop_of (n := 1) (by rw [hstep, hb]; simp), hstep, hb]
      rfl
    | ub =>
      rw [whileLoop_of (n := 1) (by rw [hstep, hb]; simp), hstep, hb]
      rfl
    | hang =>
      rw [hang_bind, whileLoop_hang_iff]
      intro n
      cases n with
      | zero => rfl
      | succ n => rw [hstep, hb, hang_bind]
  · rw [if_neg hc, whileLoop_of (n := 1) (by simp [whileN, hc])]
    simp [whileN, hc]

/-! ### Partial correctness -/

/-- Neither exception nor undefined behaviour, and `P` holds of the result if
there is one. -/
def Post (x : Run α) (P : α → Prop) : Prop :=
  match x with
  | ok a => P a
  | throw => False
  | ub => False
  | hang => True

@[simp] theorem post_ok {a : α} {P : α → Prop} : (ok a).Post P ↔ P a := Iff.rfl
@[simp] theorem post_throw {P : α → Prop} : (throw : Run α).Post P ↔ False := Iff.rfl
@[simp] theorem post_ub {P : α → Prop} : (ub : Run α).Post P ↔ False := Iff.rfl
@[simp] theorem post_hang {P : α → Prop} : (hang : Run α).Post P ↔ True := Iff.rfl

theorem Post.bind {x : Run α} {f : α → Run β} {P : α → Prop} {Q : β → Prop} (h : x.Post P)
    (hf : ∀ a, P a → (f a).Post Q) : (x >>= f).Post Q := by
  cases x with
  | ok a => exact hf a h
  | throw => exact h.elim
  | ub => exact h.elim
  | hang => trivial

theorem Post.mono {x : Run α} {P Q : α → Prop} (h : x.Post P) (hf : ∀ a, P a → Q a) :
    x.Post Q := by
  cases x with
  | ok a => exact hf a h
  | throw => exact h.elim
  | ub => exact h.elim
  | hang => trivial

/-- No undefined behaviour, and `P` holds of the result if there is one. -/
def Weak (x : Run α) (P : α → Prop) : Prop :=
  match x with
  | ok a => P a
  | throw => True
  | ub => False
  | hang => True

theorem weak_iff {x : Run α} {P : α → Prop} : x.Weak P ↔ x ≠ ub ∧ ∀ a, x = ok a → P a := by
  cases x <;> simp [Weak]

theorem Post.weak {x : Run α} {P : α → Prop} (h : x.Post P) : x.Weak P := by
  cases x with
  | ok a => exact h
  | throw => trivial
  | ub => exact h.elim
  | hang => trivial

theorem Weak.bind {x : Run α} {f : α → Run β} {P : α → Prop} {Q : β → Prop} (h : x.Weak P)
    (hf : ∀ a, P a → (f a).Weak Q) : (x >>= f).Weak Q := by
  cases x with
  | ok a => exact hf a h
  | throw => trivial
  | ub => exact h.elim
  | hang => trivial

theorem Weak.mono {x : Run α} {P Q : α → Prop} (h : x.Weak P) (hf : ∀ a, P a → Q a) :
    x.Weak Q := by
  cases x with
  | ok a => exact hf a h
  | throw => trivial
  | ub => exact h.elim
  | hang => trivial

theorem check_weak (p : Prop) [Decidable p] : (check p : Run PUnit.{u+1}).Weak fun _ => p := by
  unfold check
  split
  · assumption
  · trivial

/-- Rule of invariants. -/
theorem whileLoop_post {cond : σ → Bool} {body : σ → Run σ} {I : σ → Prop}
    (hb : ∀ s, I s → cond s = true → (body s).Post I) {s : σ} (hs : I s) :
    (whileLoop cond body s).Post fun s' => I s' ∧ cond s' = false := by
  have key : ∀ n s, I s → (whileN cond body n s).Post fun s' => I s' ∧ cond s' = false := by
    intro n
    induction n with
    | zero => intro s _; trivial
    | succ n ih =>
      intro s hs
      simp only [whileN]
      split
      · rename_i hc
        exact (hb s hs hc).bind fun a ha => ih a ha
      · rename_i hc
        exact ⟨hs, by simpa using hc⟩
  by_cases h : whileLoop cond body s = hang
  · rw [h]; trivial
  · rw [whileLoop_hang_iff] at h
    push Not at h
    obtain ⟨n, hn⟩ := h
    rw [whileLoop_of hn]
    exact key n s hs

/-- A loop whose condition stays true, with a body that returns, runs forever. -/
theorem whileLoop_hang {cond : σ → Bool} {body : σ → Run σ} {I : σ → Prop}
    (hb : ∀ s, I s → cond s = true ∧ ∃ s', body s = ok s' ∧ I s') {s : σ} (hs : I s) :
    whileLoop cond body s = hang := by
  rw [whileLoop_hang_iff]
  intro n
  induction n generalizing s with
  | zero => rfl
  | succ n ih =>
    obtain ⟨h1, s', h2, h3⟩ := hb s hs
    simp only [whileN, h1, if_true, h2, ok_bind]
    exact ih h3

/-- A loop with a measure that decreases ends, unless its body does not. -/
theorem whileLoop_ends {cond : σ → Bool} {body : σ → Run σ} {I : σ → Prop} {μ : σ → ℕ}
    (hb : ∀ s, I s → cond s = true → body s ≠ hang ∧
      ∀ s', body s = ok s' → I s' ∧ (cond s' = true → μ s' < μ s)) {s : σ} (hs : I s) :
    whileLoop cond body s ≠ hang := by
  have key : ∀ n s, I s → μ s ≤ n → whileLoop cond body s ≠ hang := by
    intro n
    induction n with
    | zero =>
      intro s hs hn
      rw [whileLoop_eq]
      split
      · rename_i hc
        obtain ⟨h1, h2⟩ := hb s hs hc
        cases hx : body s with
        | ok a =>
          rw [ok_bind, whileLoop_eq]
          have h3 := (h2 a hx).2
          split
          · rename_i hc'
            have := h3 hc'
            omega
          · simp
        | throw => simp
        | ub => simp
        | hang => exact absurd hx h1
      · simp
    | succ n ih =>
      intro s hs hn
      rw [whileLoop_eq]
      split
      · rename_i hc
        obtain ⟨h1, h2⟩ := hb s hs hc
        cases hx : body s with
        | ok a =>
          rw [ok_bind]
          by_cases hc' : cond a = true
          · exact ih a (h2 a hx).1 (by have := (h2 a hx).2 hc'; omega)
          · rw [whileLoop_eq, if_neg hc']; simp
        | throw => simp
        | ub => simp
        | hang => exact absurd hx h1
      · simp
  exact key _ s hs le_rfl

end Run

end Verif.Generate
