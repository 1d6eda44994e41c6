import Verif.DdExchange.Atoms
import Mathlib.Data.Fin.VecNotation
import Mathlib.Tactic.FinCases
import Mathlib.Tactic.NormNum

/-! # Properties of the exchange of atoms (C16) -/

set_option autoImplicit false

namespace Verif.DdExchange

open Verif.Boundary Verif.DdChem

variable {N : Fin 3 → ℕ} {D : Type}

/-- A position belongs to the domain of a processor: lower bounds included, upper bounds
excluded. -/
def Owns (p : Proc N) (x : Vec) : Prop := ∀ i, bound p i 0 ≤ x i ∧ x i < bound p i 1

/-- The same with both bounds included. -/
def OwnsClosed (p : Proc N) (x : Vec) : Prop := ∀ i, bound p i 0 ≤ x i ∧ x i ≤ bound p i 1

/-- Positions equal modulo the lattice (generalized coordinates). -/
def SameImage (x y : Vec) : Prop := ∃ n : Fin 3 → ℤ, ∀ i, y i = x i + n i

/-- No atom is farther from the domain of its processor than the width of a domain. -/
def WithinOne (G : Proc N → Local D) : Prop :=
  ∀ p, ∀ a ∈ (G p).atoms, ∀ i,
    bound p i 0 - 1 / (N i : ℝ) ≤ a.pos i ∧ a.pos i ≤ bound p i 1 + 1 / (N i : ℝ)

/-- No coordinate is exactly an upper bound of the domain of its processor or of the next. -/
def OffUpperFaces (G : Proc N → Local D) : Prop :=
  ∀ p, ∀ a ∈ (G p).atoms, ∀ i,
    a.pos i ≠ bound p i 1 ∧ a.pos i ≠ bound p i 1 + 1 / (N i : ℝ)

theorem mem_located {G : Proc N → Local D} {p : Proc N} {a : Atom D} :
    (p, a) ∈ located G ↔ a ∈ (G p).atoms := by
  classical
  rw [located, Multiset.mem_sum]
  constructor
  · rintro ⟨q, _, h⟩
    simp only [Multiset.map_coe, Multiset.mem_coe, List.mem_map, Prod.mk.injEq] at h
    obtain ⟨b, hb, rfl, rfl⟩ := h
    exact hb
  · intro h
    exact ⟨p, Finset.mem_univ _, by simpa using h⟩

theorem target_closed (slab : Vec) (p : Proc N) (a : Atom D) (i : Fin 3)
    (h : bound p i 0 - 1 / (N i : ℝ) ≤ a.pos i ∧ a.pos i ≤ bound p i 1 + 1 / (N i : ℝ)) :
    let r := target slab (p, a)
    bound r.1 i 0 ≤ r.2.pos i ∧ r.2.pos i ≤ bound r.1 i 1 := by
  intro r
  obtain ⟨-, -, ht⟩ := target_spec slab p a
  obtain ⟨-, hl, hu, hm⟩ := ht i
  have hr := bound_width r.1 i
  have hw := width_pos p i
  by_cases h0 : a.pos i < bound p i 0
  · have := hl h0
    change r.2.pos i - bound r.1 i 1 = _ at this
    constructor <;> linarith [h.1]
  · by_cases h1 : bound p i 1 < a.pos i
    · have := hu h1
      change r.2.pos i - bound r.1 i 0 = _ at this
      constructor <;> linarith [h.2]
    · obtain ⟨e1, e2⟩ := hm (not_lt.1 h0) (not_lt.1 h1)
      change r.1 i = p i at e1
      change r.2.pos i = a.pos i at e2
      rw [e2, bound_congr e1, bound_congr e1]
      exact ⟨not_lt.1 h0, not_lt.1 h1⟩

theorem target_half_open (slab : Vec) (p : Proc N) (a : Atom D) (i : Fin 3)
    (h : bound p i 0 - 1 / (N i : ℝ) ≤ a.pos i ∧ a.pos i ≤ bound p i 1 + 1 / (N i : ℝ))
    (hne : a.pos i ≠ bound p i 1 ∧ a.pos i ≠ bound p i 1 + 1 / (N i : ℝ)) :
    let r := target slab (p, a)
    r.2.pos i < bound r.1 i 1 := by
  intro r
  obtain ⟨-, -, ht⟩ := target_spec slab p a
  obtain ⟨-, hl, hu, hm⟩ := ht i
  have hr := bound_width r.1 i
  have hw := width_pos p i
  by_cases h0 : a.pos i < bound p i 0
  · have := hl h0
    change r.2.pos i - bound r.1 i 1 = _ at this
    linarith
  · by_cases h1 : bound p i 1 < a.pos i
    · have := hu h1
      change r.2.pos i - bound r.1 i 0 = _ at this
      have := lt_of_le_of_ne h.2 hne.2
      linarith
    · obtain ⟨e1, e2⟩ := hm (not_lt.1 h0) (not_lt.1 h1)
      change r.1 i = p i at e1
      change r.2.pos i = a.pos i at e2
      rw [e2, bound_congr e1]
      exact lt_of_le_of_ne (not_lt.1 h1) hne.1

/-- **C16, conservation.** The stored atoms after the exchange are exactly the atoms before it:
there is a correspondence that keeps the data of each atom and its position modulo the lattice,
and no atom is lost, created or duplicated (equality of multisets). No hypothesis. -/
theorem C16_conservation (slab : Vec) (G : Proc N → Local D) :
    ∃ f : Proc N × Atom D → Proc N × Atom D,
      located (exchangeAtoms slab G) = (located G).map f ∧
      ∀ c, (f c).2.data = c.2.data ∧ SameImage c.2.pos (f c).2.pos := by
  refine ⟨target slab, located_exchangeAtoms slab G, ?_⟩
  rintro ⟨p, a⟩
  obtain ⟨hd, -, ht⟩ := target_spec slab p a
  refine ⟨hd, fun i => (ht i).1.choose, fun i => (ht i).1.choose_spec⟩

/-- **C16, each atom is stored once.** If the data (which contain the atom id) of the atoms are
distinct, then after the exchange each atom is stored by exactly one processor, exactly once. -/
theorem C16_stored_once (slab : Vec) (G : Proc N → Local D)
    (hid : ((located G).map fun c => c.2.data).Nodup) :
    ((located (exchangeAtoms slab G)).map fun c => c.2.data).Nodup ∧
    ∀ p, ∀ a ∈ (G p).atoms, ∃! c : Proc N × Atom D,
      c.2 ∈ (exchangeAtoms slab G c.1).atoms ∧ c.2.data = a.data := by
  have hmap : (located (exchangeAtoms slab G)).map (fun c => c.2.data) =
      (located G).map fun c => c.2.data := by
    rw [located_exchangeAtoms, Multiset.map_map]
    apply Multiset.map_congr rfl
    rintro ⟨p, a⟩ _
    exact (target_spec slab p a).1
  have hnd : ((located (exchangeAtoms slab G)).map fun c => c.2.data).Nodup := by rw [hmap]; exact hid
  refine ⟨hnd, ?_⟩
  intro p a ha
  refine ⟨target slab (p, a), ⟨?_, (target_spec slab p a).1⟩, ?_⟩
  · apply (mem_located (G := exchangeAtoms slab G)).1
    rw [located_exchangeAtoms]
    exact Multiset.mem_map_of_mem _ ((mem_located).2 ha)
  · rintro ⟨q, b⟩ ⟨hb, hbd⟩
    have h1 : (q, b) ∈ located (exchangeAtoms slab G) := (mem_located).2 hb
    have h2 : target slab (p, a) ∈ located (exchangeAtoms slab G) := by
      rw [located_exchangeAtoms]
      exact Multiset.mem_map_of_mem _ ((mem_located).2 ha)
    exact Multiset.inj_on_of_nodup_map hnd _ h1 _ h2 (hbd.trans (target_spec slab p a).1.symm)

/-- **C16, delivery, closed domains.** If no atom is farther than one domain from the domain of
its processor, then after the exchange every atom lies in the closed domain of its processor. -/
theorem C16_delivery (slab : Vec) (G : Proc N → Local D) (h : WithinOne G) :
    ∀ q, ∀ b ∈ (exchangeAtoms slab G q).atoms, OwnsClosed q b.pos := by
  intro q b hb
  have hm : (q, b) ∈ located (exchangeAtoms slab G) := (mem_located).2 hb
  rw [located_exchangeAtoms, Multiset.mem_map] at hm
  obtain ⟨⟨p, a⟩, ha, he⟩ := hm
  intro i
  have := target_closed slab p a i (h p a ((mem_located).1 ha) i)
  simp only [he] at this
  exact this

/-- **C16, delivery to the owner, partial.** The position lies in the half open domain that
`Domain::isInDomain` and `Domain::ownerRank` define, unless a coordinate was exactly an upper
bound. Missing: coordinates on upper bounds (see `C16_upper_face_stays`). -/
theorem C16_owner_partial (slab : Vec) (G : Proc N → Local D) (h : WithinOne G)
    (hf : OffUpperFaces G) :
    ∀ q, ∀ b ∈ (exchangeAtoms slab G q).atoms, Owns q b.pos := by
  intro q b hb
  have hm : (q, b) ∈ located (exchangeAtoms slab G) := (mem_located).2 hb
  rw [located_exchangeAtoms, Multiset.mem_map] at hm
  obtain ⟨⟨p, a⟩, ha, he⟩ := hm
  intro i
  have ha' := (mem_located).1 ha
  have h1 := target_closed slab p a i (h p a ha' i)
  have h2 := target_half_open slab p a i (h p a ha' i) (hf p a ha' i)
  simp only [he] at h1 h2
  exact ⟨h1.1, h2⟩

/-- Atoms that are inside their domain are not touched. -/
theorem C16_inside_stays (slab : Vec) (G : Proc N → Local D) (p : Proc N) (a : Atom D)
    (ha : a ∈ (G p).atoms) (hin : OwnsClosed p a.pos) :
    ∃ b ∈ (exchangeAtoms slab G p).atoms, b.data = a.data ∧ b.pos = a.pos := by
  obtain ⟨hd, -, ht⟩ := target_spec slab p a
  have hp : (target slab (p, a)).1 = p := funext fun i => ((ht i).2.2.2 (hin i).1 (hin i).2).1
  refine ⟨(target slab (p, a)).2, ?_, hd, funext fun i => ((ht i).2.2.2 (hin i).1 (hin i).2).2⟩
  apply (mem_located (G := exchangeAtoms slab G)).1
  rw [located_exchangeAtoms, Multiset.mem_map]
  exact ⟨(p, a), (mem_located).2 ha, Prod.ext hp rfl⟩

/-! ### The upper face -/

/-- A grid of two processors in direction 0. -/
def grid2 : Fin 3 → ℕ := ![2, 1, 1]

/-- Processor 0 of `grid2`. -/
def proc0 : Proc grid2 := fun i => ⟨0, by fin_cases i <;> decide⟩

/-- Processor 1 of `grid2`. -/
def proc1 : Proc grid2 := fun i => ⟨if i = 0 then 1 else 0, by fin_cases i <;> decide⟩

/-- **C16, negation at upper faces.** An atom exactly on the upper bound of its domain stays
there, although its position belongs to the domain of the next processor only. -/
theorem C16_upper_face_stays (slab : Vec) :
    ∃ G : Proc grid2 → Local ℕ, WithinOne G ∧
      ∃ b ∈ (exchangeAtoms slab G proc0).atoms, ¬ Owns proc0 b.pos ∧ Owns proc1 b.pos := by
  classical
  have b00 : bound proc0 0 0 = 0 := by simp [bound, proc0]
  have b01 : bound proc0 0 1 = 1 / 2 := by simp [bound, proc0, grid2]
  have b10 : bound proc1 0 0 = 1 / 2 := by simp [bound, proc1, grid2]
  have b11 : bound proc1 0 1 = 1 := by simp [bound, proc1, grid2]; norm_num
  have c0 : ∀ i : Fin 3, i ≠ 0 → bound proc0 i 0 = 0 ∧ bound proc0 i 1 = 1 ∧ bound proc1 i 0 = 0 ∧
      bound proc1 i 1 = 1 := by
    intro i hi
    fin_cases i
    · exact absurd rfl hi
    · simp [bound, proc0, proc1, grid2]
    · simp [bound, proc0, proc1, grid2]
  set x : Vec := fun i => if i = 0 then 1 / 2 else 0 with hx
  set a : Atom ℕ := ⟨7, x, Plan.mk 0⟩ with ha
  have hin : OwnsClosed proc0 x := by
    intro i
    by_cases hi : i = 0
    · subst hi; rw [b00, b01, hx]; norm_num
    · obtain ⟨h1, h2, -, -⟩ := c0 i hi
      rw [h1, h2]; simp only [hx, if_neg hi]; norm_num
  refine ⟨fun p => ⟨if p = proc0 then [a] else [], fun _ => []⟩, ?_, ?_⟩
  · intro p b hb i
    by_cases hp : p = proc0
    · subst hp
      simp only [if_true, List.mem_singleton] at hb
      subst hb
      have hw := width_pos proc0 i
      have := hin i
      constructor <;> [linarith [this.1]; linarith [this.2]]
    · simp [hp] at hb
  · obtain ⟨b, hb, -, hpos⟩ := C16_inside_stays slab
      (fun p => ⟨if p = proc0 then [a] else [], fun _ => []⟩) proc0 a (by simp) hin
    refine ⟨b, hb, ?_, ?_⟩
    · intro h
      have := (h 0).2
      rw [hpos, b01] at this
      simp [ha, hx] at this
    · intro i
      rw [hpos]
      by_cases hi : i = 0
      · subst hi; rw [b10, b11]; simp only [ha, hx, if_true]; norm_num
      · obtain ⟨-, -, h1, h2⟩ := c0 i hi
        rw [h1, h2]; simp only [ha, hx, if_neg hi]; norm_num

/-- The hypotheses hold in a case in which an atom crosses the periodic boundary: it is
delivered to the other processor. -/
example : ∃ G : Proc grid2 → Local ℕ, WithinOne G ∧ OffUpperFaces G ∧
    ∃ a ∈ (G proc0).atoms, a.pos 0 < bound proc0 0 0 := by
  classical
  set x : Vec := fun i => if i = 0 then -1 / 4 else 1 / 2 with hx
  set a : Atom ℕ := ⟨7, x, Plan.mk 0⟩ with ha
  refine ⟨fun p => ⟨if p = proc0 then [a] else [], fun _ => []⟩, ?_, ?_, a, by simp, ?_⟩
  · intro p b hb i
    by_cases hp : p = proc0
    · subst hp
      simp only [if_true, List.mem_singleton] at hb
      subst hb
      fin_cases i <;> simp [bound, proc0, grid2, ha, hx] <;> norm_num
    · simp [hp] at hb
  · intro p b hb i
    by_cases hp : p = proc0
    · subst hp
      simp only [if_true, List.mem_singleton] at hb
      subst hb
      fin_cases i <;> simp [bound, proc0, grid2, ha, hx] <;> norm_num
    · simp [hp] at hb
  · simp [bound, proc0, grid2, ha, hx]; norm_num

end Verif.DdExchange
