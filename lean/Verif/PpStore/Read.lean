/-
The loop over atoms of a file.
-/
import Verif.PpStore.Model

set_option autoImplicit false

namespace Verif.PpStore

open Verif.Cpp
open Verif.Cpp.Out

/-- A counted loop with an invariant succeeds exactly if all its passes can. -/
theorem loop_range_iff {σ : Type} (P : ℕ → σ → Prop) (Q : ℕ → Prop) (f : σ → ℕ → Out σ) (n : ℕ) (s : σ)
    (h0 : P 0 s) (hs : ∀ i < n, ∀ s, P i s → Q i → ∃ s', f s i = ok s' ∧ P (i + 1) s')
    (hn : ∀ i < n, ∀ s, P i s → ∀ s', f s i = ok s' → Q i) :
    ((∃ s', loop f (List.range n) s = ok s') ↔ ∀ i < n, Q i) ∧
      ∀ s', loop f (List.range n) s = ok s' → P n s' := by
  induction n with
  | zero =>
    refine ⟨⟨fun _ i hi => absurd hi (Nat.not_lt_zero i), fun _ => ⟨s, rfl⟩⟩, ?_⟩
    intro s' h
    cases h
    exact h0
  | succ n ih =>
    obtain ⟨ih1, ih2⟩ := ih (fun i hi => hs i (by omega)) (fun i hi => hn i (by omega))
    have key : ∀ s', loop f (List.range (n + 1)) s = ok s' ↔
        ∃ t, loop f (List.range n) s = ok t ∧ f t n = ok s' := by
      intro s'
      rw [List.range_succ, loop_append, bind_eq_ok]
      refine exists_congr fun t => and_congr_right fun _ => ?_
      rw [loop_cons, bind_eq_ok]
      simp
    constructor
    · constructor
      · rintro ⟨s', h⟩ i hi
        obtain ⟨t, h1, h2⟩ := (key s').1 h
        rcases Nat.lt_succ_iff_lt_or_eq.1 hi with hi | rfl
        · exact ih1.1 ⟨t, h1⟩ i hi
        · exact hn _ (by omega) t (ih2 t h1) s' h2
      · intro h
        obtain ⟨t, h1⟩ := ih1.2 fun i hi => h i (by omega)
        obtain ⟨s', h2, -⟩ := hs n (by omega) t (ih2 t h1) (h n (by omega))
        exact ⟨s', (key s').2 ⟨t, h1, h2⟩⟩
    · intro s' h
      obtain ⟨t, h1, h2⟩ := (key s').1 h
      have hp := ih2 t h1
      obtain ⟨s'', h3, h4⟩ := hs n (by omega) t hp (hn n (by omega) t hp s' h2)
      rw [h2] at h3
      cases h3
      exact h4

/-- What an atom is after its line has been read: fields that are not in the format keep what was in
memory. -/
def Line.atom (l : Line) (hasIndex context : Bool) (old : Atom) : Atom :=
  { id := if hasIndex then l.id else old.id
    sp := if context then l.sp else old.sp
    mol := if context then l.mol else old.mol
    idx := if context then l.idx else old.idx }

/-- A line that passes the checks of the reader. -/
def Line.Good (l : Line) (hasIndex ordered context : Bool) (cap i : ℕ) : Prop :=
  (hasIndex = true → 0 ≤ l.id ∧ (ordered = true → l.id = i) ∧ l.id < cap) ∧
    (context = true → 0 ≤ l.sp ∧ 0 ≤ l.mol ∧ 0 ≤ l.idx)

theorem ite_ok {σ : Type} {p q : Prop} [Decidable p] [Decidable q] {x y : σ} :
    ((if p ∧ q then ok x else ub : Out σ) = ok y) ↔ p ∧ q ∧ y = x := by
  split_ifs with h
  · simp [h.1, h.2, eq_comm]
  · simp only [false_iff]
    exact fun h' => h ⟨h'.1, h'.2.1⟩

/-- One pass of the loop. -/
theorem readAtom_ok {hasIndex ordered context : Bool} {s s' : Store} {i : ℕ} {l : Line} :
    readAtom hasIndex ordered context s i l = ok s' ↔
      s.new = none ∧ s.size < s.cap ∧ l.Good hasIndex ordered context s.cap i ∧
        0 ≤ (l.atom hasIndex context (s.mem s.size)).id ∧
        (l.atom hasIndex context (s.mem s.size)).id < s.cap ∧
        s' = { s with
          mem := Function.update s.mem s.size (l.atom hasIndex context (s.mem s.size))
          size := s.size + 1
          ptrs := Function.update s.ptrs (l.atom hasIndex context (s.mem s.size)).id.toNat (some s.size)
          new := none } := by
  obtain ⟨cap, mem, size, ptrs, new⟩ := s
  unfold readAtom Store.newPtr
  cases new with
  | some k => simp
  | none =>
    by_cases hc : size < cap
    · cases hasIndex <;> cases context <;>
        simp [hc, Line.Good, Line.atom, Store.set, Store.add, bind_eq_ok, check] <;>
        rw [ite_ok] <;> tauto
    · simp [hc]

/-- **C77 (atoms of a file).** The loop over atoms succeeds exactly if every line passes the checks
and every atom has an index below the capacity; then the atoms are stored in the order of the file,
and `ptr(id)` is the last atom of the file with index `id`, null if there is none. -/
theorem C77_read {hasIndex ordered context : Bool} {n : ℕ} {lines : ℕ → Line} {s : Store}
    (hnew : s.new = none) (hcap : n ≤ s.cap) :
    let at' := fun k => (lines k).atom hasIndex context (s.mem k)
    ((∃ s', readAtoms hasIndex ordered context n lines s.clear = ok s') ↔
      ∀ k < n, (lines k).Good hasIndex ordered context s.cap k ∧ 0 ≤ (at' k).id ∧ (at' k).id < s.cap) ∧
    ∀ s', readAtoms hasIndex ordered context n lines s.clear = ok s' →
      s'.cap = s.cap ∧ s'.size = n ∧ s'.new = none ∧ (∀ k < n, s'.mem k = at' k) ∧
      ∀ j k, s'.ptrs j = some k ↔
        k < n ∧ (at' k).id = j ∧ ∀ k', k < k' → k' < n → (at' k').id ≠ j := by
  intro at'
  have := loop_range_iff (σ := Store)
    (fun i t => t.cap = s.cap ∧ t.size = i ∧ t.new = none ∧
      ((∀ k < i, t.mem k = at' k) ∧ ∀ k, i ≤ k → t.mem k = s.mem k) ∧
      ∀ j k, t.ptrs j = some k ↔ k < i ∧ (at' k).id = j ∧ ∀ k', k < k' → k' < i → (at' k').id ≠ j)
    (fun k => (lines k).Good hasIndex ordered context s.cap k ∧ 0 ≤ (at' k).id ∧ (at' k).id < s.cap)
    (fun s i => readAtom hasIndex ordered context s i (lines i)) n s.clear
    ⟨rfl, rfl, hnew, ⟨fun k hk => absurd hk (Nat.not_lt_zero k), fun _ _ => rfl⟩, fun j k => by
      simp [Store.clear]⟩ ?_ ?_
  · refine ⟨this.1, fun s' h => ?_⟩
    obtain ⟨h1, h2, h3, ⟨h4, -⟩, h5⟩ := this.2 s' h
    exact ⟨h1, h2, h3, h4, h5⟩
  · rintro i hi t ⟨h1, h2, h3, ⟨h4, h4'⟩, h5⟩ ⟨q1, q2, q3⟩
    have e' : (lines i).atom hasIndex context (t.mem i) = at' i := by rw [h4' i le_rfl]
    have e : (lines i).atom hasIndex context (t.mem t.size) = at' i := by rw [h2, e']
    refine ⟨_, readAtom_ok.2 ⟨h3, by omega, by rw [h1]; exact q1, by rw [e]; exact q2,
      by rw [e, h1]; exact q3, rfl⟩, h1, by simp only [h2], rfl, ⟨fun k hk => ?_, fun k hk => ?_⟩,
      fun j k => ?_⟩
    · simp only [h2, e']
      rcases Nat.lt_succ_iff_lt_or_eq.1 hk with hk | rfl
      · rw [Function.update_of_ne (by omega), h4 k hk]
      · rw [Function.update_self]
    · simp only [h2, e']
      rw [Function.update_of_ne (by omega), h4' k (by omega)]
    · simp only [h2, e']
      by_cases hj : j = (at' i).id.toNat
      · have hj' : (at' i).id = j := by omega
        rw [hj, Function.update_self, ← hj]
        constructor
        · intro h
          cases h
          exact ⟨by omega, hj', fun k' h1 h2 => by omega⟩
        · rintro ⟨g1, g2, g3⟩
          by_contra hne
          have : k ≠ i := fun h => hne (by rw [h])
          exact g3 i (by omega) (by omega) hj'
      · have hj' : (at' i).id ≠ j := by omega
        rw [Function.update_of_ne hj, h5]
        constructor
        · rintro ⟨g1, g2, g3⟩
          refine ⟨by omega, g2, fun k' a b => ?_⟩
          rcases Nat.lt_succ_iff_lt_or_eq.1 b with b | rfl
          · exact g3 k' a b
          · exact hj'
        · rintro ⟨g1, g2, g3⟩
          refine ⟨?_, g2, fun k' a b => g3 k' a (by omega)⟩
          rcases Nat.lt_succ_iff_lt_or_eq.1 g1 with g1 | rfl
          · exact g1
          · exact absurd g2 hj'
  · rintro i hi t ⟨h1, h2, h3, ⟨h4, h4'⟩, h5⟩ s' h
    obtain ⟨-, -, g1, g2, g3, -⟩ := readAtom_ok.1 h
    have e' : (lines i).atom hasIndex context (t.mem i) = at' i := by rw [h4' i le_rfl]
    have e : (lines i).atom hasIndex context (t.mem t.size) = at' i := by rw [h2, e']
    rw [e] at g2 g3
    rw [h1] at g1 g3
    exact ⟨g1, g2, g3⟩

/-- **C77 (distinct indices).** If the indices in the file are distinct, `ptr(id)` is the atom with
index `id`, for every atom of the file. -/
theorem C77_read_distinct {ordered context : Bool} {n : ℕ} {lines : ℕ → Line} {s s' : Store}
    (hnew : s.new = none) (hcap : n ≤ s.cap)
    (hd : ∀ k k', k < n → k' < n → (lines k).id = (lines k').id → k = k')
    (h : readAtoms true ordered context n lines s.clear = ok s') :
    ∀ j k, s'.ptrs j = some k ↔ k < n ∧ (s'.mem k).id = j := by
  obtain ⟨-, -, -, h4, h5⟩ := (C77_read hnew hcap).2 s' h
  intro j k
  rw [h5]
  constructor
  · rintro ⟨g1, g2, -⟩
    exact ⟨g1, by rw [h4 k g1]; exact g2⟩
  · rintro ⟨g1, g2⟩
    rw [h4 k g1] at g2
    refine ⟨g1, g2, fun k' a b c => ?_⟩
    have : (lines k).id = (lines k').id := g2.trans c.symm
    have := hd k k' g1 b this
    omega

/-- A pass with an index never leaves the arrays. -/
theorem readAtom_safe {ordered context : Bool} {s : Store} {i : ℕ} {l : Line} (hs : s.size < s.cap) :
    readAtom true ordered context s i l ≠ ub := by
  unfold readAtom Store.newPtr
  by_cases hnew : s.new.isSome
  · rw [if_pos hnew]; simp
  rw [if_neg hnew, if_pos hs]
  simp only [ok_bind, if_true]
  by_cases h1 : 0 ≤ l.id
  swap
  · rw [check_false h1]; simp
  by_cases h2 : ordered = true → l.id = i
  swap
  · rw [check_true h1, ok_bind, check_false h2]; simp
  by_cases h3 : l.id < s.cap
  swap
  · rw [check_true h1, ok_bind, check_true h2, ok_bind, check_false h3]; simp
  rw [check_true h1, ok_bind, check_true h2, ok_bind, check_true h3]
  simp only [ok_bind]
  cases context
  · simp [Store.set, Store.add, h1, h3]
  · by_cases g1 : 0 ≤ l.sp
    swap
    · simp [check_false g1]
    by_cases g2 : 0 ≤ l.mol
    swap
    · simp [check_true g1, check_false g2]
    by_cases g3 : 0 ≤ l.idx
    swap
    · simp [check_true g1, check_true g2, check_false g3]
    simp [check_true g1, check_true g2, check_true g3, Store.set, Store.add, h1, h3]

/-- **C77 (bad files).** Whatever the lines of a file with indices, the loop over at most as many
atoms as there is room for succeeds or throws. -/
theorem C77_read_safe {ordered context : Bool} {n : ℕ} {lines : ℕ → Line} {s : Store}
    (hnew : s.new = none) (hcap : n ≤ s.cap) :
    readAtoms true ordered context n lines s.clear ≠ ub := by
  have key : ∀ i ≤ n, (∃ t, readAtoms true ordered context i lines s.clear = ok t ∧ t.size = i ∧
      t.cap = s.cap) ∨ readAtoms true ordered context i lines s.clear = throw := by
    intro i
    induction i with
    | zero => intro _; exact Or.inl ⟨_, rfl, rfl, rfl⟩
    | succ i ih =>
      intro hi
      have hstep : readAtoms true ordered context (i + 1) lines s.clear =
          readAtoms true ordered context i lines s.clear >>= fun t =>
            readAtom true ordered context t i (lines i) := by
        unfold readAtoms
        rw [List.range_succ, loop_append]
        congr 1
        funext t
        rw [loop_cons]
        cases readAtom true ordered context t i (lines i) <;> rfl
      rcases ih (by omega) with ⟨t, h1, h2, h3⟩ | h
      · have hs := readAtom_safe (ordered := ordered) (context := context) (s := t) (i := i)
          (l := lines i) (by omega)
        rw [hstep, h1, ok_bind]
        cases hr : readAtom true ordered context t i (lines i) with
        | ok u =>
          have g := (C77_read (hasIndex := true) (ordered := ordered) (context := context)
            (n := i + 1) (lines := lines) hnew (by omega)).2 u (by rw [hstep, h1, ok_bind, hr])
          exact Or.inl ⟨u, rfl, g.2.1, g.1⟩
        | throw => exact Or.inr rfl
        | ub => exact absurd hr hs
      · rw [hstep, h]; exact Or.inr rfl
  rcases key n le_rfl with ⟨t, h, -⟩ | h <;> rw [h] <;> simp

/-- **C77 (violated for repeated indices).** A file in which two atoms have the same index is read
without complaint: both are counted, but only the last can be found by its index. -/
theorem C77_duplicate_violated {n : ℕ} {lines : ℕ → Line} {s : Store} (hnew : s.new = none)
    (hcap : n ≤ s.cap) (hr : ∀ k < n, 0 ≤ (lines k).id ∧ (lines k).id < s.cap) {k k' : ℕ} (hkk : k < k')
    (hk : k' < n) (he : (lines k).id = (lines k').id) :
    ∃ s', readAtoms true false false n lines s.clear = ok s' ∧ s'.size = n ∧
      ∀ j, s'.ptrs j ≠ some k := by
  obtain ⟨h1, h2⟩ := C77_read (hasIndex := true) (ordered := false) (context := false)
    (lines := lines) hnew hcap
  obtain ⟨s', h⟩ := h1.2 fun k hk => ⟨⟨fun _ => ⟨(hr k hk).1, fun x => by simp at x, (hr k hk).2⟩,
    fun x => by simp at x⟩, hr k hk⟩
  obtain ⟨-, g1, -, -, g2⟩ := h2 s' h
  refine ⟨s', h, g1, fun j hj => ?_⟩
  obtain ⟨-, a, b⟩ := (g2 j k).1 hj
  exact b k' hkk hk (he.symm.trans a)

/-- **C77 (violated for ordered files without indices).** If the format has no indices, they are not
set: atoms have the indices that were in memory.  In memory of zeros, all atoms get index 0, and
`ptr(id)` is null for all others. -/
theorem C77_noindex_violated {n : ℕ} {lines : ℕ → Line} {s : Store} (hnew : s.new = none)
    (hcap : n ≤ s.cap) (h0 : ∀ k, (s.mem k).id = 0) (hn : 0 < n) :
    ∃ s', readAtoms false true false n lines s.clear = ok s' ∧ s'.size = n ∧
      s'.ptrs 0 = some (n - 1) ∧ ∀ j, 0 < j → s'.ptrs j = none := by
  obtain ⟨h1, h2⟩ := C77_read (hasIndex := false) (ordered := true) (context := false)
    (lines := lines) hnew hcap
  have hid : ∀ k, ((lines k).atom false false (s.mem k)).id = 0 := h0
  obtain ⟨s', h⟩ := h1.2 fun k hk => ⟨⟨fun x => by simp at x, fun x => by simp at x⟩,
    by simp only [hid]; exact le_rfl, by simp only [hid]; omega⟩
  obtain ⟨-, g1, -, -, g2⟩ := h2 s' h
  refine ⟨s', h, g1, (g2 0 (n - 1)).2 ⟨by omega, hid _, fun k' a b => by omega⟩, fun j hj => ?_⟩
  cases hp : s'.ptrs j with
  | none => rfl
  | some k =>
    have := ((g2 j k).1 hp).2.1
    rw [hid] at this
    omega

/-- **C77 (violated after an exception).** If reading stopped between `newPtr` and `add`, clearing the
storage does not help: no further atom can be added. -/
theorem C77_pending_violated {s : Store} {k : ℕ} (h : s.new = some k) :
    s.clear.newPtr = throw := by
  simp [Store.clear, Store.newPtr, h]

end Verif.PpStore
