/-
C32: the builders of the species classes produce valid molecular structures.
-/
import Verif.Species.Valid
import Mathlib.Algebra.Order.Group.Int
import Mathlib.Algebra.Order.Ring.Int

set_option autoImplicit false

namespace Verif.Species

open Verif.Cpp
open Verif.Cpp.Out

/-! ### Specification -/

/-- A set of `n` groups of `N` atoms whose `i`-th group has the given atoms and
type. -/
structure Chain (N : ℕ) (nAtom : ℤ) (n : ℤ) (atoms : ℕ → List ℤ) (type : ℤ) (p : Part) :
    Prop where
  count : p.n = n
  group : ∀ i : ℕ, (i : ℤ) < n → p.grps[i]? = some ⟨atoms i, type⟩
  ok : PartOK N nAtom p

/-- The structure of a linear molecule: consecutive atoms are bonded, three
consecutive atoms form an angle and four a dihedral, if these are present. -/
structure LinearOK (nAtom : ℤ) (type : ℕ → ℤ) (tb : ℤ) (hasA : Prop) (ta : ℤ) (hasD : Prop)
    (td : ℤ) (s : Sp) : Prop where
  atoms : s.nAtom = nAtom
  types : s.types = (List.range nAtom.toNat).map type
  bonds : Chain 2 nAtom (nAtom - 1) (fun i => [(i : ℤ), i + 1]) tb s.bonds
  angles : hasA → Chain 3 nAtom (nAtom - 2) (fun i => [(i : ℤ), i + 1, i + 2]) ta s.angles
  noAngles : ¬ hasA → s.angles.n = 0 ∧ PartOK 3 nAtom s.angles
  dihedrals : hasD →
    Chain 4 nAtom (nAtom - 3) (fun i => [(i : ℤ), i + 1, i + 2, i + 3]) td s.dihedrals
  noDihedrals : ¬ hasD → s.dihedrals.n = 0 ∧ PartOK 4 nAtom s.dihedrals

/-! ### Degrees -/

theorem sum_ite_le_one (n : ℕ) (f : ℕ → ℤ) (k : ℤ)
    (h : ∀ i < n, ∀ j < n, f i = f j → i = j) :
    ∑ i ∈ Finset.range n, (if f i = k then 1 else 0) ≤ 1 := by
  by_cases hk : ∃ i < n, f i = k
  · obtain ⟨i, hi, rfl⟩ := hk
    rw [Finset.sum_eq_single i]
    · simp
    · intro j hj hne
      rw [if_neg]
      intro hh
      exact hne (h j (Finset.mem_range.mp hj) i hi hh)
    · intro hn; exact absurd (Finset.mem_range.mpr hi) hn
  · push Not at hk
    rw [Finset.sum_eq_zero]
    · exact Nat.zero_le _
    · intro i hi
      rw [if_neg (hk i (Finset.mem_range.mp hi))]

/-- A group list given by injective index functions has degree at most the
number of functions. -/
theorem degree_le (n : ℕ) (fs : List (ℕ → ℤ))
    (h : ∀ f ∈ fs, ∀ i < n, ∀ j < n, f i = f j → i = j) (k : ℕ) :
    degree (fun i => fs.map fun f => f i) n k ≤ fs.length := by
  induction fs with
  | nil => simp [degree]
  | cons f fs ih =>
    have h1 := ih fun g hg => h g (by simp [hg])
    have h2 := sum_ite_le_one n f k (h f (by simp))
    unfold degree at h1 ⊢
    simp only [] at h1
    simp only [List.map_cons, List.count_cons, Finset.sum_add_distrib, List.length_cons,
      beq_iff_eq]
    omega

theorem setTypes_ok (m : ℕ) (f : ℕ → Out ℤ) (ty : ℕ → ℤ) (h : ∀ i < m, f i = ok (ty i)) :
    setTypes m (List.replicate m (-1)) f = ok ((List.range m).map ty) := by
  unfold setTypes
  rw [Int.toNat_natCast]
  have key : ∀ k ≤ m, loop (fun ts i => do let t ← f i; ok (ts.set i t)) (List.range k)
      (List.replicate m (-1)) = ok ((List.range k).map ty ++ List.replicate (m - k) (-1)) := by
    intro k hk
    induction k with
    | zero => simp
    | succ k ih =>
      rw [List.range_succ, loop_append, ih (by omega), ok_bind, loop_cons, h k (by omega)]
      simp only [ok_bind, loop_nil]
      congr 1
      rw [List.map_append, List.append_assoc, List.set_append_right _ _ (by simp)]
      congr 1
      have : m - k = (m - (k + 1)) + 1 := by omega
      simp [this, List.replicate_succ]
  simpa using key m le_rfl

theorem allocPart_ok (N : ℕ) (m n : ℕ) (hm : 0 < m) :
    allocPart N m n = ok ⟨n, List.replicate n (nullGrp N), fun _ => []⟩ := by
  unfold allocPart
  rw [check_true (by omega), ok_bind, check_true (by omega), ok_bind, Int.toNat_natCast]

/-- A builder loop with injective index functions on freshly allocated
arrays. -/
theorem buildPart (N cap m n : ℕ) (fs : List (ℕ → ℤ)) (t : ℤ) (hN : fs.length = N)
    (hcap : N ≤ cap) (hinj : ∀ f ∈ fs, ∀ i < n, ∀ j < n, f i = f j → i = j)
    (hr : ∀ f ∈ fs, ∀ i < n, 0 ≤ f i ∧ f i < (m : ℤ)) :
    makeAll cap m (fun i => fs.map fun f => f i) (fun _ => t)
        ⟨n, List.replicate n (nullGrp N), fun _ => []⟩ =
      ok ⟨n, (List.range n).map fun i => ⟨fs.map fun f => f i, t⟩,
        regIds (fun i => fs.map fun f => f i) n⟩ := by
  refine makeAll_ok N cap m n _ _ ?_ ?_
  · intro i hi a ha
    obtain ⟨f, hf, rfl⟩ := List.mem_map.mp ha
    exact hr f hf i hi
  · intro k
    exact (degree_le n fs hinj k).trans (by omega)

theorem chain_of (N m n : ℕ) (fs : List (ℕ → ℤ)) (t : ℤ) (hN : fs.length = N)
    (hr : ∀ f ∈ fs, ∀ i < n, 0 ≤ f i ∧ f i < (m : ℤ))
    (hnd : ∀ i < n, (fs.map fun f => f i).Nodup) :
    Chain N m n (fun i => fs.map fun f => f i) t
      ⟨n, (List.range n).map fun i => ⟨fs.map fun f => f i, t⟩,
        regIds (fun i => fs.map fun f => f i) n⟩ := by
  refine ⟨rfl, ?_, ?_⟩
  · intro i hi
    have : i < n := by exact_mod_cast hi
    simp [this]
  · refine partOK_reg N m n _ (fun _ => t) (fun i _ => by simp [hN]) ?_ hnd
    intro i hi a ha
    obtain ⟨f, hf, rfl⟩ := List.mem_map.mp ha
    exact hr f hf i hi

/-! ### Linear molecules -/

def linFs2 : List (ℕ → ℤ) := [fun i => i, fun i => i + 1]
def linFs3 : List (ℕ → ℤ) := [fun i => i, fun i => i + 1, fun i => i + 2]
def linFs4 : List (ℕ → ℤ) := [fun i => i, fun i => i + 1, fun i => i + 2, fun i => i + 3]

/-- `buildLinear` called with consistent counts succeeds and gives the
structure of a linear molecule, which passes validation. -/
theorem buildLinear_ok (m : ℕ) (hm : 2 ≤ m) (hasA hasD : ℤ) (f : ℕ → Out ℤ) (ty : ℕ → ℤ)
    (hf : ∀ i < m, f i = ok (ty i)) (tb ta td : ℤ) (hA : hasA ≠ 0 → 3 ≤ m)
    (hD : hasD ≠ 0 → 4 ≤ m) :
    ∃ s, buildLinear m (m - 1) (if hasA ≠ 0 then m - 2 else 0)
        (if hasD ≠ 0 then m - 3 else 0) hasA hasD f tb ta td = ok s ∧
      LinearOK m ty tb (hasA ≠ 0) ta (hasD ≠ 0) td s := by
  have cb : (m : ℤ) - 1 = ((m - 1 : ℕ) : ℤ) := by omega
  have hb := buildPart 2 maxBond m (m - 1) linFs2 tb rfl (by decide)
    (by simp only [linFs2, List.mem_cons, List.not_mem_nil, or_false]
        rintro f (rfl | rfl) i _ j _ h <;> simp only [] at h <;> omega)
    (by simp only [linFs2, List.mem_cons, List.not_mem_nil, or_false]
        rintro f (rfl | rfl) i _ <;> simp only [] <;> omega)
  have hb' := chain_of 2 m (m - 1) linFs2 tb rfl
    (by simp only [linFs2, List.mem_cons, List.not_mem_nil, or_false]
        rintro f (rfl | rfl) i _ <;> simp only [] <;> omega)
    (by intro i _; simp [linFs2])
  -- angles
  have hang : ∃ p, (do
      let angles ← allocPart 3 m (if hasA ≠ 0 then (m : ℤ) - 2 else 0)
      makeIf (hasA ≠ 0) maxAngle m (fun i => [(i : ℤ), i + 1, i + 2]) (fun _ => ta) angles) = ok p ∧
      (hasA ≠ 0 → Chain 3 m (m - 2) (fun i => [(i : ℤ), i + 1, i + 2]) ta p) ∧
      (¬ hasA ≠ 0 → p.n = 0 ∧ PartOK 3 m p) := by
    by_cases h : hasA ≠ 0
    · have h3 := hA h
      have ca : (m : ℤ) - 2 = ((m - 2 : ℕ) : ℤ) := by omega
      simp only [makeIf, if_pos h, ca]
      rw [allocPart_ok 3 m (m - 2) (by omega), ok_bind]
      have hb := buildPart 3 maxAngle m (m - 2) linFs3 ta rfl (by decide)
        (by simp only [linFs3, List.mem_cons, List.not_mem_nil, or_false]
            rintro f (rfl | rfl | rfl) i _ j _ h <;> simp only [] at h <;> omega)
        (by simp only [linFs3, List.mem_cons, List.not_mem_nil, or_false]
            rintro f (rfl | rfl | rfl) i _ <;> simp only [] <;> omega)
      have hb' := chain_of 3 m (m - 2) linFs3 ta rfl
        (by simp only [linFs3, List.mem_cons, List.not_mem_nil, or_false]
            rintro f (rfl | rfl | rfl) i _ <;> simp only [] <;> omega)
        (by intro i _; simp [linFs3])
      exact ⟨_, hb, fun _ => hb', fun hn => absurd h hn⟩
    · simp only [makeIf, if_neg h]
      refine ⟨_, by rw [show (0 : ℤ) = ((0 : ℕ) : ℤ) from rfl, allocPart_ok 3 m 0 (by omega),
        ok_bind], fun hn => absurd hn h, fun _ => ⟨rfl, ?_⟩⟩
      exact partOK_zero 3 m
  have hdih : ∃ p, (do
      let d ← allocPart 4 m (if hasD ≠ 0 then (m : ℤ) - 3 else 0)
      makeIf (hasD ≠ 0) maxDihedral m (fun i => [(i : ℤ), i + 1, i + 2, i + 3])
        (fun _ => td) d) = ok p ∧
      (hasD ≠ 0 → Chain 4 m (m - 3) (fun i => [(i : ℤ), i + 1, i + 2, i + 3]) td p) ∧
      (¬ hasD ≠ 0 → p.n = 0 ∧ PartOK 4 m p) := by
    by_cases h : hasD ≠ 0
    · have h3 := hD h
      have ca : (m : ℤ) - 3 = ((m - 3 : ℕ) : ℤ) := by omega
      simp only [makeIf, if_pos h, ca]
      rw [allocPart_ok 4 m (m - 3) (by omega), ok_bind]
      have hb := buildPart 4 maxDihedral m (m - 3) linFs4 td rfl (by decide)
        (by simp only [linFs4, List.mem_cons, List.not_mem_nil, or_false]
            rintro f (rfl | rfl | rfl | rfl) i _ j _ h <;> simp only [] at h <;> omega)
        (by simp only [linFs4, List.mem_cons, List.not_mem_nil, or_false]
            rintro f (rfl | rfl | rfl | rfl) i _ <;> simp only [] <;> omega)
      have hb' := chain_of 4 m (m - 3) linFs4 td rfl
        (by simp only [linFs4, List.mem_cons, List.not_mem_nil, or_false]
            rintro f (rfl | rfl | rfl | rfl) i _ <;> simp only [] <;> omega)
        (by intro i _; simp [linFs4])
      exact ⟨_, hb, fun _ => hb', fun hn => absurd h hn⟩
    · simp only [makeIf, if_neg h]
      refine ⟨_, by rw [show (0 : ℤ) = ((0 : ℕ) : ℤ) from rfl, allocPart_ok 4 m 0 (by omega),
        ok_bind], fun hn => absurd hn h, fun _ => ⟨rfl, ?_⟩⟩
      exact partOK_zero 4 m
  obtain ⟨pa, ha1, ha2, ha3⟩ := hang
  obtain ⟨pd, hd1, hd2, hd3⟩ := hdih
  obtain ⟨qa, ha4, ha5⟩ := bind_eq_ok.mp ha1
  obtain ⟨qd, hd4, hd5⟩ := bind_eq_ok.mp hd1
  simp only [linFs2, List.map_cons, List.map_nil] at hb hb'
  obtain ⟨pb, hb1, hb2⟩ : ∃ pb, makeAll maxBond m (fun i => [(i : ℤ), i + 1]) (fun _ => tb)
      ⟨((m - 1 : ℕ) : ℤ), List.replicate (m - 1) (nullGrp 2), fun _ => []⟩ = ok pb ∧
      Chain 2 m ((m - 1 : ℕ) : ℤ) (fun i => [(i : ℤ), i + 1]) tb pb := ⟨_, hb, hb'⟩
  refine ⟨⟨m, (List.range m).map ty, pb, pa, pd⟩, ?_,
    ⟨rfl, by simp, by rw [cb]; exact hb2, ha2, ha3, hd2, hd3⟩⟩
  unfold buildLinear
  rw [check_true (by exact_mod_cast hm), ok_bind, check_true rfl, ok_bind,
    check_true (fun h => if_pos h), ok_bind, check_true (by
      intro h; have := hD h; rw [if_pos (by omega), if_pos h]), ok_bind]
  have hat : allocAtoms m = ok (List.replicate m (-1)) := by
    unfold allocAtoms; rw [check_true (by omega), ok_bind, Int.toNat_natCast]
  rw [hat, ok_bind]
  rw [cb, allocPart_ok 2 m (m - 1) (by omega), ok_bind, ha4, ok_bind, hd4, ok_bind,
    setTypes_ok m f ty hf, ok_bind, hb1, ok_bind, ha5, ok_bind, hd5, ok_bind]

theorem LinearOK.valid {m : ℕ} {ty : ℕ → ℤ} {tb ta td : ℤ} {hasA hasD : Prop} {s : Sp}
    (h : LinearOK m ty tb hasA ta hasD td s) (mu : Bool)
    (ht : mu = true ∨ ∀ i < m, 0 ≤ ty i) : isValid mu s = ok () := by
  have hA : PartOK 3 m s.angles := by
    by_cases hh : hasA
    · exact (h.angles hh).ok
    · exact (h.noAngles hh).2
  have hD : PartOK 4 m s.dihedrals := by
    by_cases hh : hasD
    · exact (h.dihedrals hh).ok
    · exact (h.noDihedrals hh).2
  unfold isValid
  rw [check_true (by rw [h.types, h.atoms]; simp), ok_bind]
  have : checkTypes mu s.types = ok () := by
    unfold checkTypes
    cases mu
    · simp only [Bool.false_eq_true, if_false, check_eq_ok]
      have ht' : ∀ i < m, 0 ≤ ty i := by simpa using ht
      intro t hmem
      rw [h.types] at hmem
      obtain ⟨i, hi, rfl⟩ := List.mem_map.mp hmem
      exact ht' i (by simpa using hi)
    · rfl
  rw [this, ok_bind, h.atoms, partValid_of_ok h.bonds.ok, ok_bind, partValid_of_ok hA, ok_bind,
    partValid_of_ok hD]

end Verif.Species
