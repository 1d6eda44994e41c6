/-
Completion of a group: what `makeCompleteGroup` returns and when it ends.
-/
import Verif.Crystal.Model
import Mathlib.Data.Finset.Card
import Mathlib.Data.Set.Finite.Basic
import Mathlib.Data.List.Nodup

set_option autoImplicit false

namespace Verif.Crystal

open Verif.Cpp
open Verif.Cpp.Out

/-- Closed under the products and inverses of the program. -/
def Closed (X : Set Sym) : Prop :=
  (∀ a ∈ X, ∀ b ∈ X, mul a b ∈ X) ∧ ∀ a ∈ X, inverse a ∈ X

/-- The smallest closed set that contains the identity and the given elements. -/
def generated (l : List Sym) : Set Sym :=
  {x | ∀ X : Set Sym, Closed X → ident ∈ X → (∀ a ∈ l, a ∈ X) → x ∈ X}

theorem find_iff (l : List Sym) (x : Sym) : find l x = true ↔ x ∈ l := by
  unfold find
  simp only [List.any_eq_true, decide_eq_true_eq]
  constructor
  · rintro ⟨y, hy, rfl⟩; exact hy
  · intro h; exact ⟨x, h, rfl⟩

theorem add_of_mem {l : List Sym} {x : Sym} (h : x ∈ l) : add l x = (l, false) := by
  unfold add
  rw [if_pos ((find_iff l x).2 h)]

theorem add_of_not_mem {l : List Sym} {x : Sym} (h : x ∉ l) : add l x = (l ++ [x], true) := by
  unfold add
  rw [if_neg (fun c => h ((find_iff l x).1 c))]

theorem mem_add (l : List Sym) (x y : Sym) : y ∈ (add l x).1 ↔ y ∈ l ∨ y = x := by
  by_cases h : x ∈ l
  · rw [add_of_mem h]
    constructor
    · exact Or.inl
    · rintro (h2 | rfl)
      · exact h2
      · exact h
  · rw [add_of_not_mem h]; simp

theorem add_nodup {l : List Sym} (x : Sym) (h : l.Nodup) : (add l x).1.Nodup := by
  by_cases hx : x ∈ l
  · rw [add_of_mem hx]; exact h
  · rw [add_of_not_mem hx]
    exact List.Nodup.append h (List.nodup_singleton x) (by
      intro a ha hb
      rw [List.mem_singleton] at hb
      exact hx (hb ▸ ha))

theorem mem_addAll (xs l : List Sym) (y : Sym) : y ∈ addAll l xs ↔ y ∈ l ∨ y ∈ xs := by
  unfold addAll
  induction xs generalizing l with
  | nil => simp
  | cons x xs ih =>
    rw [List.foldl_cons, ih, mem_add, List.mem_cons, or_assoc]

theorem addAll_nodup (xs : List Sym) {l : List Sym} (h : l.Nodup) : (addAll l xs).Nodup := by
  unfold addAll
  induction xs generalizing l with
  | nil => exact h
  | cons x xs ih => exact ih (add_nodup x h)

theorem addAll_prefix (xs l : List Sym) : l <+: addAll l xs := by
  unfold addAll
  induction xs generalizing l with
  | nil => exact List.prefix_rfl
  | cons x xs ih =>
    refine List.IsPrefix.trans ?_ (ih (add l x).1)
    by_cases hx : x ∈ l
    · rw [add_of_mem hx]
    · rw [add_of_not_mem hx]; exact List.prefix_append l [x]

theorem addAll_eq_self {xs l : List Sym} (h : ∀ x ∈ xs, x ∈ l) : addAll l xs = l := by
  unfold addAll
  induction xs with
  | nil => rfl
  | cons x xs ih =>
    rw [List.foldl_cons, add_of_mem (h x (by simp))]
    exact ih fun y hy => h y (by simp [hy])

theorem addInverses_eq (l : List Sym) : addInverses l = addAll l (l.map inverse) := by
  unfold addInverses addAll
  rw [List.foldl_map]

/-- Elements added in a pass. -/
def products (l : List Sym) : List Sym :=
  l.flatMap fun a => l.flatMap fun b => [mul a b, inverse (mul a b)]

/-- Addition with the flag. -/
def addFlag (st : List Sym × Bool) (x : Sym) : List Sym × Bool :=
  ((add st.1 x).1, st.2 && !(add st.1 x).2)

theorem pass_eq (l : List Sym) : pass l = (products l).foldl addFlag (l, true) := by
  have inner : ∀ (a : Sym) (m : List Sym) (st : List Sym × Bool),
      m.foldl (addProduct a) st
        = (m.flatMap fun b => [mul a b, inverse (mul a b)]).foldl addFlag st := by
    intro a m
    induction m with
    | nil => intro st; rfl
    | cons b m ih =>
      intro st
      rw [List.foldl_cons, List.flatMap_cons, List.foldl_append, ih]
      rfl
  have outer : ∀ (m : List Sym) (st : List Sym × Bool),
      m.foldl (fun st a => l.foldl (addProduct a) st) st
        = (m.flatMap fun a => l.flatMap fun b => [mul a b, inverse (mul a b)]).foldl
            addFlag st := by
    intro m
    induction m with
    | nil => intro st; rfl
    | cons b m ih =>
      intro st
      rw [List.foldl_cons, List.flatMap_cons, List.foldl_append, ih, inner]
  exact outer l (l, true)

theorem foldl_addFlag_fst (xs : List Sym) (st : List Sym × Bool) :
    (xs.foldl addFlag st).1 = addAll st.1 xs := by
  unfold addAll
  induction xs generalizing st with
  | nil => rfl
  | cons x xs ih => rw [List.foldl_cons, List.foldl_cons, ih]; rfl

theorem foldl_addFlag_snd (xs : List Sym) (st : List Sym × Bool) :
    (xs.foldl addFlag st).2 = true ↔ st.2 = true ∧ ∀ x ∈ xs, x ∈ st.1 := by
  induction xs generalizing st with
  | nil => simp
  | cons x xs ih =>
    rw [List.foldl_cons, ih]
    by_cases hx : x ∈ st.1
    · simp [addFlag, add_of_mem hx, hx]
    · simp [addFlag, add_of_not_mem hx, hx]

theorem mem_products (l : List Sym) (x : Sym) :
    x ∈ products l ↔ ∃ a ∈ l, ∃ b ∈ l, x = mul a b ∨ x = inverse (mul a b) := by
  unfold products
  simp only [List.mem_flatMap, List.mem_cons, List.not_mem_nil, or_false]

theorem pass_true {l : List Sym} (h : (pass l).2 = true) :
    (pass l).1 = l ∧ ∀ x ∈ products l, x ∈ l := by
  rw [pass_eq] at h ⊢
  have h2 := ((foldl_addFlag_snd _ _).1 h).2
  rw [foldl_addFlag_fst]
  exact ⟨addAll_eq_self h2, h2⟩

theorem pass_fst (l : List Sym) : (pass l).1 = addAll l (products l) := by
  rw [pass_eq, foldl_addFlag_fst]

theorem pass_false {l : List Sym} (h : (pass l).2 = false) :
    l.length < (pass l).1.length := by
  rw [pass_fst]
  obtain ⟨t, ht⟩ := addAll_prefix (products l) l
  rw [← ht, List.length_append]
  rcases t with _ | ⟨x, t⟩
  · exfalso
    have hs : ∀ x ∈ products l, x ∈ l := by
      intro x hx
      have := (mem_addAll (products l) l x).2 (Or.inr hx)
      rw [← ht] at this
      simpa using this
    rw [pass_eq] at h
    have := (foldl_addFlag_snd (products l) (l, true)).2 ⟨rfl, hs⟩
    rw [h] at this
    exact absurd this (by simp)
  · simp

theorem pass_sub {X : Set Sym} (hX : Closed X) {l : List Sym} (h : ∀ a ∈ l, a ∈ X) :
    ∀ a ∈ (pass l).1, a ∈ X := by
  intro x hx
  rw [pass_fst, mem_addAll] at hx
  rcases hx with hx | hx
  · exact h x hx
  · obtain ⟨a, ha, b, hb, rfl | rfl⟩ := (mem_products l x).1 hx
    · exact hX.1 a (h a ha) b (h b hb)
    · exact hX.2 _ (hX.1 a (h a ha) b (h b hb))

theorem ident_mul (a : Sym) : mul ident a = a := by
  funext i j
  fin_cases i <;> simp [mul, ident]

/-- What the loop returns: a closed set that contains the given one and is in every
other. -/
theorem passes_sound (n : ℕ) {l r : List Sym} (h1 : ident ∈ l) (hn : l.Nodup)
    (h : passes n l = some r) :
    (∀ a ∈ l, a ∈ r) ∧ r.Nodup ∧ Closed {x | x ∈ r} ∧
      (∀ X : Set Sym, Closed X → (∀ a ∈ l, a ∈ X) → ∀ a ∈ r, a ∈ X) ∧ l <+: r := by
  induction n generalizing l with
  | zero => exact absurd h (by simp [passes])
  | succ n ih =>
    rw [passes] at h
    by_cases hp : (pass l).2 = true
    · rw [if_pos hp] at h
      obtain ⟨he, hs⟩ := pass_true hp
      rw [he] at h
      obtain rfl : l = r := by injection h
      refine ⟨fun a ha => ha, hn, ⟨?_, ?_⟩, fun X _ hX a ha => hX a ha, List.prefix_rfl⟩
      · intro a ha b hb
        exact hs _ ((mem_products l _).2 ⟨a, ha, b, hb, Or.inl rfl⟩)
      · intro a ha
        refine hs _ ((mem_products l _).2 ⟨ident, h1, a, ha, Or.inr ?_⟩)
        rw [ident_mul]
    · rw [if_neg hp] at h
      have hsub : l <+: (pass l).1 := by rw [pass_fst]; exact addAll_prefix _ _
      obtain ⟨i1, i2, i3, i4, i5⟩ := ih (l := (pass l).1) (hsub.subset h1)
        (by rw [pass_fst]; exact addAll_nodup _ hn) h
      exact ⟨fun a ha => i1 a (hsub.subset ha), i2, i3,
        fun X hX hl => i4 X hX (pass_sub hX hl), hsub.trans i5⟩

theorem passes_mono {n m : ℕ} (h : n ≤ m) {l r : List Sym} (hr : passes n l = some r) :
    passes m l = some r := by
  induction n generalizing l m with
  | zero => exact absurd hr (by simp [passes])
  | succ n ih =>
    obtain ⟨m, rfl⟩ : ∃ k, m = k + 1 := ⟨m - 1, by omega⟩
    rw [passes] at hr ⊢
    by_cases hp : (pass l).2 = true
    · rw [if_pos hp] at hr ⊢; exact hr
    · rw [if_neg hp] at hr ⊢; exact ih (by omega) hr

theorem passes_end (K : Finset Sym) (hK : Closed {x | x ∈ K}) (n : ℕ) {l : List Sym}
    (hn : l.Nodup) (hl : ∀ a ∈ l, a ∈ K) (hc : K.card < n + l.length) :
    ∃ r, passes n l = some r := by
  have hle : ∀ m : List Sym, m.Nodup → (∀ a ∈ m, a ∈ K) → m.length ≤ K.card := by
    intro m hm hs
    rw [← List.toFinset_card_of_nodup hm]
    exact Finset.card_le_card fun x hx => hs x (List.mem_toFinset.1 hx)
  induction n generalizing l with
  | zero =>
    have := hle l hn hl
    omega
  | succ n ih =>
    rw [passes]
    by_cases hp : (pass l).2 = true
    · rw [if_pos hp]; exact ⟨_, rfl⟩
    · rw [if_neg hp]
      have := pass_false (by simpa using hp)
      exact ih (by rw [pass_fst]; exact addAll_nodup _ hn)
        (pass_sub (X := {x | x ∈ K}) hK hl) (by omega)

theorem addInverses_sub {X : Set Sym} (hX : Closed X) {l : List Sym} (h : ∀ a ∈ l, a ∈ X) :
    ∀ a ∈ addInverses l, a ∈ X := by
  intro x hx
  rw [addInverses_eq, mem_addAll] at hx
  rcases hx with hx | hx
  · exact h x hx
  · obtain ⟨a, ha, rfl⟩ := List.mem_map.1 hx
    exact hX.2 a (h a ha)

theorem start_mem (l : List Sym) (x : Sym) :
    x ∈ addAll newGroup l ↔ x = ident ∨ x ∈ l := by
  rw [mem_addAll]; simp [newGroup]

/-- The result of a completion, whenever it ends, for arbitrary matrices. -/
theorem complete_sound (n : ℕ) {l r : List Sym}
    (h : makeCompleteGroup n (addAll newGroup l) = some r) :
    r.Nodup ∧ (∀ x, x ∈ r ↔ x ∈ generated l) ∧ Closed {x | x ∈ r} ∧ ident ∈ r ∧
      (∀ x ∈ l, x ∈ r) ∧ ∃ t, r = ident :: t := by
  unfold makeCompleteGroup at h
  have hpre : addAll newGroup l <+: addInverses (addAll newGroup l) := by
    rw [addInverses_eq]; exact addAll_prefix _ _
  have hin : ident ∈ addAll newGroup l := (start_mem l _).2 (Or.inl rfl)
  have hnd : (addInverses (addAll newGroup l)).Nodup := by
    rw [addInverses_eq]
    exact addAll_nodup _ (addAll_nodup _ (by simp [newGroup]))
  obtain ⟨i1, i2, i3, i4, i5⟩ := passes_sound n (hpre.subset hin) hnd h
  have hsub : ∀ x ∈ addAll newGroup l, x ∈ r := fun x hx => i1 x (hpre.subset hx)
  refine ⟨i2, fun x => ⟨?_, ?_⟩, i3, hsub _ hin, fun x hx => hsub x ((start_mem l x).2 (Or.inr hx)),
    ?_⟩
  · intro hx X hX h1 hl
    refine i4 X hX (addInverses_sub hX ?_) x hx
    intro a ha
    rcases (start_mem l a).1 ha with rfl | ha
    · exact h1
    · exact hl a ha
  · intro hx
    exact hx _ i3 (hsub _ hin) fun a ha => hsub a ((start_mem l a).2 (Or.inr ha))
  · have : [ident] <+: r := ((addAll_prefix l newGroup).trans hpre).trans i5
    obtain ⟨t, ht⟩ := this
    exact ⟨t, ht.symm⟩

theorem generated_closed (l : List Sym) : Closed (generated l) := by
  refine ⟨?_, ?_⟩
  · intro a ha b hb X hX h1 hl
    exact hX.1 a (ha X hX h1 hl) b (hb X hX h1 hl)
  · intro a ha X hX h1 hl
    exact hX.2 a (ha X hX h1 hl)

theorem complete_end {l : List Sym} (K : Finset Sym) (hK : Closed {x | x ∈ K})
    (h1 : ident ∈ K) (hl : ∀ a ∈ l, a ∈ K) :
    ∃ r, ∀ n, K.card ≤ n → makeCompleteGroup n (addAll newGroup l) = some r := by
  have hnd : (addInverses (addAll newGroup l)).Nodup := by
    rw [addInverses_eq]
    exact addAll_nodup _ (addAll_nodup _ (by simp [newGroup]))
  have hpre : addAll newGroup l <+: addInverses (addAll newGroup l) := by
    rw [addInverses_eq]; exact addAll_prefix _ _
  have hin : ident ∈ addInverses (addAll newGroup l) :=
    hpre.subset ((start_mem l _).2 (Or.inl rfl))
  have hlen : 0 < (addInverses (addAll newGroup l)).length := List.length_pos_of_mem hin
  obtain ⟨r, hr⟩ := passes_end K hK K.card hnd
    (addInverses_sub (X := {x | x ∈ K}) hK (by
      intro a ha
      rcases (start_mem l a).1 ha with rfl | ha
      · exact h1
      · exact hl a ha)) (by omega)
  exact ⟨r, fun n hn => passes_mono hn hr⟩

/-- Completion ends exactly if the generated set is finite; more passes than the
number of its elements are not needed. -/
theorem C42_terminates_iff (l : List Sym) :
    (∃ n r, makeCompleteGroup n (addAll newGroup l) = some r) ↔ (generated l).Finite := by
  constructor
  · rintro ⟨n, r, h⟩
    have := (complete_sound n h).2.1
    refine Set.Finite.subset (List.finite_toSet r) fun x hx => (this x).2 hx
  · intro hf
    obtain ⟨r, hr⟩ := complete_end (l := l) hf.toFinset
      (by
        have := generated_closed l
        convert this using 1
        ext x; simp)
      (by
        rw [Set.Finite.mem_toFinset]
        intro X _ h _; exact h)
      (by
        intro a ha
        rw [Set.Finite.mem_toFinset]
        intro X _ _ h; exact h a ha)
    exact ⟨_, r, hr _ le_rfl⟩

end Verif.Crystal
