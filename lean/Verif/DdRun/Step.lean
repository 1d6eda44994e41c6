import Verif.DdRun.Force

/-! # One step of the parallel integrator -/

set_option autoImplicit false

namespace Verif.DdRun

open Verif.Boundary Verif.DdExchange Verif.DdCellList Verif.Integrate

variable {N : Fin 3 → ℕ} {ι : Type}

/-- The forces do not depend on the images of the atoms. -/
theorem field_shift [Fintype ι] {y : Env ι} (ok : y.OK) {r r' : ι → Vec}
    (h : ∀ i, ∃ m : Fin 3 → ℤ, r' i = r i + y.cart fun l => m l) (i : ι) : y.field r' i = y.field r i := by
  classical
  unfold Env.field
  refine Finset.sum_congr rfl fun j _ => ?_
  split
  · obtain ⟨mi, hi⟩ := h i
    obtain ⟨mj, hj⟩ := h j
    rw [← finsum_comp_equiv (Equiv.addRight (mi - mj))]
    refine finsum_congr fun k => ?_
    congr 1
    have : (fun l => (((Equiv.addRight (mi - mj)) k l : ℤ) : ℝ)) =
        (fun l => (k l : ℝ)) + ((fun l => (mi l : ℝ)) - fun l => (mj l : ℝ)) := by
      funext l
      simp
    rw [this, ok.cart_add, ok.cart_sub, hi, hj]
    abel
  · rfl

/-- The forces add to zero. -/
theorem field_sum [Fintype ι] {y : Env ι} (ok : y.OK) (r : ι → Vec) : ∑ i, y.field r i = 0 := by
  classical
  have key : ∀ i j, (if j ≠ i ∧ ¬ y.masked i j then ∑ᶠ k : Fin 3 → ℤ, y.pairForce i j (r i - (r j + y.cart fun l => k l)) else 0) =
      - (if i ≠ j ∧ ¬ y.masked j i then ∑ᶠ k : Fin 3 → ℤ, y.pairForce j i (r j - (r i + y.cart fun l => k l)) else 0) := by
    intro i j
    by_cases h : j ≠ i ∧ ¬ y.masked i j
    · have h' : i ≠ j ∧ ¬ y.masked j i := ⟨h.1.symm, fun hm => h.2 (ok.mask_symm _ _ hm)⟩
      rw [if_pos h, if_pos h', ← finsum_neg_distrib, ← finsum_comp_equiv (Equiv.neg _)]
      refine finsum_congr fun k => ?_
      rw [← ok.pairForce_neg]
      congr 1
      have : (fun l => (((Equiv.neg (Fin 3 → ℤ)) k l : ℤ) : ℝ)) = - fun l => (k l : ℝ) := by funext l; simp
      rw [this, ok.cart_neg]
      abel
    · have h' : ¬ (i ≠ j ∧ ¬ y.masked j i) := fun h' => h ⟨h'.1.symm, fun hm => h'.2 (ok.mask_symm _ _ hm)⟩
      rw [if_neg h, if_neg h', neg_zero]
  have e : ∑ i, y.field r i = - ∑ i, y.field r i := by
    unfold Env.field
    conv_lhs => rw [Finset.sum_comm]
    rw [← Finset.sum_neg_distrib]
    refine Finset.sum_congr rfl fun i _ => ?_
    rw [← Finset.sum_neg_distrib]
    exact Finset.sum_congr rfl fun j _ => key j i
  funext l
  have := congrFun e l
  simp only [Pi.neg_apply] at this
  simp only [Pi.zero_apply]
  linarith

/-! ### Displacements -/

theorem maxSqDisp_le (s : Run N ι) (p : Proc N) {k : ℕ} (hk : k < s.nloc p) :
    normSq (s.pos p k - s.snap p k) ≤ s.maxSqDisp p := by
  unfold Run.maxSqDisp
  have gen : ∀ (l : List ℕ) (m : ℝ), m ≤ l.foldl (fun m k => if normSq (s.pos p k - s.snap p k) > m then
      normSq (s.pos p k - s.snap p k) else m) m ∧ ∀ k ∈ l, normSq (s.pos p k - s.snap p k) ≤
      l.foldl (fun m k => if normSq (s.pos p k - s.snap p k) > m then normSq (s.pos p k - s.snap p k) else m) m := by
    intro l
    induction l with
    | nil => intro m; simp
    | cons x l ih =>
      intro m
      rw [List.foldl_cons]
      obtain ⟨h1, h2⟩ := ih (if normSq (s.pos p x - s.snap p x) > m then normSq (s.pos p x - s.snap p x) else m)
      refine ⟨le_trans ?_ h1, ?_⟩
      · split <;> linarith
      · intro k hk
        rcases List.mem_cons.1 hk with rfl | hk
        · refine le_trans ?_ h1
          split <;> linarith
        · exact h2 k hk
  exact (gen _ 0).2 k (List.mem_range.2 hk)

theorem not_needed {y : Env ι} (ok : y.OK) {s : Run N ι} (h : ¬ y.Needed s) {p : Proc N} {k : ℕ} (hk : k < s.nloc p) :
    normSq (s.pos p k - s.snap p k) ≤ (y.skin / 2) ^ 2 := by
  have h1 : ¬ Real.sqrt (s.maxSqDisp p) > 0.5 * y.skin := fun h' => h ⟨p, h'⟩
  push Not at h1
  have h2 : s.maxSqDisp p ≤ (0.5 * y.skin) ^ 2 := (Real.sqrt_le_left (by linarith [ok.skin])).1 h1
  have h3 := maxSqDisp_le s p hk
  have h4 : (0.5 * y.skin) ^ 2 = (y.skin / 2) ^ 2 := by ring
  linarith

theorem normSq_add_le {u v : Vec} {a b : ℝ} (ha : 0 ≤ a) (hb : 0 ≤ b) (hu : normSq u ≤ a ^ 2)
    (hv : normSq v ≤ b ^ 2) : normSq (u + v) ≤ (a + b) ^ 2 := by
  have hc : (u 0 * v 0 + u 1 * v 1 + u 2 * v 2) ^ 2 ≤ normSq u * normSq v := by
    unfold normSq
    nlinarith [sq_nonneg (u 0 * v 1 - u 1 * v 0), sq_nonneg (u 0 * v 2 - u 2 * v 0),
      sq_nonneg (u 1 * v 2 - u 2 * v 1)]
  have h0 : 0 ≤ normSq v := by unfold normSq; positivity
  have h1 : normSq u * normSq v ≤ (a * b) ^ 2 := by
    rw [mul_pow]
    exact mul_le_mul hu hv h0 (sq_nonneg a)
  have h2 := abs_le_of_sq_le_sq (hc.trans h1) (mul_nonneg ha hb)
  have h3 : normSq (u + v) = normSq u + normSq v + 2 * (u 0 * v 0 + u 1 * v 1 + u 2 * v 2) := by
    unfold normSq; simp only [Pi.add_apply]; ring
  rw [h3]
  nlinarith [(abs_le.1 h2).2]

/-! ### Distinct ids -/

theorem copies_ids (atoms : Proc N → List (Atom (Dat ι))) :
    (copies atoms).map (fun c => c.2.data.1) = ∑ p, ((atoms p).map (fun a => a.data.1) : Multiset ι) := by
  classical
  unfold copies
  rw [← Multiset.coe_mapAddMonoidHom, map_sum]
  refine Finset.sum_congr rfl fun p _ => ?_
  simp [Function.comp_def]

theorem distinct_of_ids {atoms : Proc N → List (Atom (Dat ι))} (h : ((copies atoms).map fun c => c.2.data.1).Nodup) :
    Distinct atoms := by
  unfold Distinct
  apply Multiset.Nodup.of_map (f := Prod.fst)
  rw [Multiset.map_map]
  exact h

theorem Placed.local_ids {slab : Vec} {a v : ι → Vec} {G : Proc N → Local (Dat ι)} (h : Placed slab a v G) :
    ((copies fun p => (exchangeAtoms slab G p).atoms).map fun c => c.2.data.1).Nodup := by
  have hd := distinct_exchangeAtoms slab G h.distinct
  refine (Multiset.nodup_map_iff_inj_on ?_).2 ?_
  · exact Multiset.Nodup.of_map _ hd
  · rintro ⟨p, u⟩ hu ⟨q, w⟩ hw e
    obtain ⟨rfl, rfl⟩ := h.local_unique (mem_copies.1 hu) (mem_copies.1 hw) e
    rfl

/-! ### Invariant -/

/-- The state represents positions `r` (modulo the lattice) and velocities `v`; forces are those
at `f`. `a` and `v0` are scaled positions and velocities before the last exchange, and `δ` the
displacements since then. -/
structure Tracks [Fintype ι] (y : Env ι) (G : Proc N → Local (Dat ι)) (a v0 δ r v : ι → Vec) (s : Run N ι) : Prop where
  placed : Placed y.slab a v0 G
  since : Since y G s
  small : ∀ i, normSq (δ i) ≤ (y.skin / 2) ^ 2
  pos : ∀ p, ∀ u ∈ (exchange y.slab G).atoms p, s.pos p (slot ((exchange y.slab G).atoms p) u) = y.cart u.pos + δ u.data.1
  snap : ∀ p, ∀ u ∈ (exchangeAtoms y.slab G p).atoms, s.snap p (slot ((exchange y.slab G).atoms p) u) = y.cart u.pos
  image : ∀ i, ∃ m : Fin 3 → ℤ, y.cart (a i) + δ i = r i + y.cart fun l => m l
  vel : ∀ p, ∀ u ∈ (exchangeAtoms y.slab G p).atoms, s.vel p (slot ((exchange y.slab G).atoms p) u) = v u.data.1

section

variable [Fintype ι] {y : Env ι} (ok : y.OK) (hthin : y.reverse = true ∨ 2 * y.slab 2 ≤ 1 / (N 2 : ℝ))
  {G : Proc N → Local (Dat ι)} {a v0 δ r v : ι → Vec} {s : Run N ι}
include ok

include hthin in
theorem Tracks.force (h : Tracks y G a v0 δ r v s) {p : Proc N} {k : ℕ} {i : ι} (hi : s.localId p k = some i) :
    (y.computeForces s).force p k = y.field r i := by
  have e : (y.computeForces s).force p k = y.field (fun i => y.cart (a i) + δ i) i := by
    cases hr : y.reverse with
    | true => exact force_reverse ok hr h.placed h.small h.since h.pos hi
    | false =>
      refine force_forward ok hr (hthin.resolve_left (by simp [hr])) h.placed h.small h.since h.pos hi
  rw [e]
  exact field_shift ok h.image i

omit ok in
/-- The state after an exchange. -/
theorem tracks_exchanged {P : Proc N → List (Atom (Dat ι) × Atom (Dat ι))} (h : Placed y.slab a v G) (hP : y.Built G P)
    (hi : ∀ i, ∃ m : Fin 3 → ℤ, y.cart (a i) = r i + y.cart fun l => m l) :
    Tracks y G a v 0 r v (y.exchanged G P) where
  placed := h
  since := ⟨rfl, fun _ => rfl, hP⟩
  small := by intro i; simp [normSq]; positivity
  pos := by
    intro p u hu
    unfold Env.exchanged
    simp only [slot_get hu]
    simp
  snap := by
    intro p u hu
    unfold Env.exchanged
    simp only [slot_get (h.mem_local hu)]
    simp
  image := by intro i; simpa using hi i
  vel := by
    intro p u hu
    unfold Env.exchanged
    simp only [slot_get (h.mem_local hu)]
    simp only [Option.map_some, Option.getD_some]
    rw [(h.copy (h.mem_local hu)).1]

/-! ### First half of a step -/

/-- Velocities after the first half of a step. -/
noncomputable def half (y : Env ι) (r v : ι → Vec) (i : ι) : Vec := v i + (0.5 * y.dt / y.mass i) • y.field r i

omit ok in
theorem Tracks.step1 (h : Tracks y G a v0 δ r v s)
    (hF : ∀ p, ∀ u ∈ (exchangeAtoms y.slab G p).atoms, s.force p (slot ((exchange y.slab G).atoms p) u) = y.field r u.data.1) :
    Since y G (y.step1 s) ∧
    (∀ p, ∀ u ∈ (exchangeAtoms y.slab G p).atoms,
      (y.step1 s).pos p (slot ((exchange y.slab G).atoms p) u) = y.cart u.pos + (δ u.data.1 + y.dt • half y r v u.data.1) ∧
      (y.step1 s).vel p (slot ((exchange y.slab G).atoms p) u) = half y r v u.data.1 ∧
      (y.step1 s).snap p (slot ((exchange y.slab G).atoms p) u) = y.cart u.pos) := by
  refine ⟨⟨h.since.gs, h.since.nloc, h.since.lists⟩, ?_⟩
  intro p u hu
  have hl : s.localId p (slot ((exchange y.slab G).atoms p) u) = some u.data.1 :=
    (localId_iff h.placed h.since).2 ⟨u, hu, rfl, rfl⟩
  unfold Env.step1
  simp only [hl]
  rw [h.pos p u (h.placed.mem_local hu), h.vel p u hu, hF p u hu, h.snap p u hu]
  refine ⟨?_, rfl, rfl⟩
  unfold half
  abel

theorem Tracks.update (h : Tracks y G a v0 δ r v s)
    (hF : ∀ p, ∀ u ∈ (exchangeAtoms y.slab G p).atoms, s.force p (slot ((exchange y.slab G).atoms p) u) = y.field r u.data.1)
    (hn : ¬ y.Needed (y.step1 s)) :
    Tracks y G a v0 (fun i => δ i + y.dt • half y r v i) (fun i => r i + y.dt • half y r v i) (half y r v)
      (y.updated (y.step1 s)) := by
  obtain ⟨hs, hloc⟩ := h.step1 hF
  have hlat : ∀ i s t, y.lat i (s + t) = y.lat i s + y.lat i t := by
    intro i s t
    rw [ok.lat, ok.lat, ok.lat, ← ok.cart_add, ← Pi.single_add]
    push_cast; rfl
  obtain ⟨u1, u2⟩ := C17_update y.lat hlat (fun q => (exchangeAtoms y.slab G q).atoms)
    (fun q d => resolve (exchangeAtoms y.slab G q).atoms ((exchangeAtoms y.slab G q).send d))
    (resolve_ok y.slab G h.placed.distinct).1 (y.step1 s).pos
  refine ⟨h.placed, ⟨hs.gs, hs.nloc, hs.lists⟩, ?_, ?_, ?_, ?_, ?_⟩
  · intro i
    obtain ⟨p, u, hu, rfl⟩ := h.placed.exists_local i
    have := not_needed ok hn (p := p) (k := slot ((exchange y.slab G).atoms p) u)
      (by rw [hs.nloc]; exact (h.placed.slot_lt_iff (h.placed.mem_local hu)).2 hu)
    rw [(hloc p u hu).1, (hloc p u hu).2.2, add_sub_cancel_left] at this
    exact this
  · intro p u hu
    show DdExchange.update y.lat (y.step1 s).gs (y.step1 s).pos p _ = _
    rw [hs.gs]
    obtain ⟨q, k, w, hw, hd, n, hn, e⟩ := u2 p _ u (slot_get hu)
    refine Eq.trans e ?_
    have hwm := List.mem_of_getElem? hw
    have hk : slot ((exchange y.slab G).atoms q) w = k := by
      refine slot_of_get (h.placed.nodup q) ?_
      obtain ⟨gh, eg⟩ := h.placed.split q
      rw [eg, List.getElem?_append_left (List.getElem?_eq_some_iff.1 hw).1]
      exact hw
    rw [← hk, (hloc q w hwm).1, hd]
    have e2 : u.pos = w.pos + fun l => (n l : ℝ) := funext hn
    have e3 : ∑ i, y.lat i (n i) = y.cart fun l => (n l : ℝ) := by
      rw [Fin.sum_univ_three, ok.lat, ok.lat, ok.lat, ← ok.cart_add, ← ok.cart_add]
      congr 1
      funext l
      fin_cases l <;> simp
    rw [e3, e2, ok.cart_add]
    abel
  · intro p u hu
    exact (hloc p u hu).2.2
  · intro i
    obtain ⟨m, hm⟩ := h.image i
    refine ⟨m, ?_⟩
    rw [← add_assoc, hm]; abel
  · intro p u hu
    exact (hloc p u hu).2.1

omit ok [Fintype ι] in
theorem gathered_mem (h : Placed y.slab a v G) (hs : Since y G s) {p : Proc N} {w : Atom (Dat ι)}
    (hw : w ∈ (y.gathered s p).atoms) : ∃ u ∈ (exchangeAtoms y.slab G p).atoms,
      w.data = (u.data.1, s.vel p (slot ((exchange y.slab G).atoms p) u)) ∧
      w.pos = y.gen (s.pos p (slot ((exchange y.slab G).atoms p) u)) := by
  obtain ⟨gh, e⟩ := h.split p
  unfold Env.gathered at hw
  simp only at hw
  rw [hs.gs, hs.nloc, e, List.take_left] at hw
  obtain ⟨k, hk, rfl⟩ := List.mem_mapIdx.1 hw
  have : slot ((exchange y.slab G).atoms p) (exchangeAtoms y.slab G p).atoms[k] = k := by
    refine slot_of_get (h.nodup p) ?_
    rw [e, List.getElem?_append_left hk, List.getElem?_eq_getElem hk]
  refine ⟨_, List.getElem_mem hk, ?_, ?_⟩
  · rw [this]
  · rw [this]

omit ok [Fintype ι] in
theorem gathered_ids (h : Placed y.slab a v G) (hs : Since y G s) (p : Proc N) :
    ((y.gathered s p).atoms.map fun w => w.data.1) = (exchangeAtoms y.slab G p).atoms.map fun w => w.data.1 := by
  obtain ⟨gh, e⟩ := h.split p
  unfold Env.gathered
  simp only
  rw [hs.gs, hs.nloc, e, List.take_left]
  apply List.ext_getElem
  · simp
  · intro k h1 h2
    simp

/-- No coordinate is on a boundary of a domain. -/
def Generic (N : Fin 3 → ℕ) (y : Env ι) (r : ι → Vec) : Prop := ∀ i l, ∀ z : ℤ, y.gen (r i) l * N l ≠ z

theorem Tracks.gathered (h : Tracks y G a v0 δ r v s)
    (hF : ∀ p, ∀ u ∈ (exchangeAtoms y.slab G p).atoms, s.force p (slot ((exchange y.slab G).atoms p) u) = y.field r u.data.1)
    {ρ : ℝ} (hρ : ∀ l, (y.skin / 2 + ρ) / y.L l ≤ 1 / (N l : ℝ) - y.slab l) (hρ0 : 0 ≤ ρ)
    (hstep : ∀ i, normSq (y.dt • half y r v i) ≤ ρ ^ 2) (hgen : Generic N y fun i => r i + y.dt • half y r v i) :
    ∃ a', Placed y.slab a' (half y r v) (y.gathered (y.step1 s)) ∧
      ∀ i, ∃ m : Fin 3 → ℤ, y.cart (a' i) = r i + y.dt • half y r v i + y.cart fun l => m l := by
  obtain ⟨hs, hloc⟩ := h.step1 hF
  choose pl ul hul hui using h.placed.exists_local
  have hpos : ∀ p, ∀ u ∈ (exchangeAtoms y.slab G p).atoms,
      y.gen ((y.step1 s).pos p (slot ((exchange y.slab G).atoms p) u)) =
        u.pos + y.gen (δ u.data.1 + y.dt • half y r v u.data.1) := by
    intro p u hu
    rw [(hloc p u hu).1, ok.gen_add, ok.gen_cart]
  have hul' : ∀ p, ∀ u ∈ (exchangeAtoms y.slab G p).atoms, u = ul u.data.1 := fun p u hu =>
    (h.placed.local_unique hu (hul _) (hui _).symm).2
  have himg : ∀ i, ∃ m : Fin 3 → ℤ, y.cart ((ul i).pos + y.gen (δ i + y.dt • half y r v i)) =
      r i + y.dt • half y r v i + y.cart fun l => m l := by
    intro i
    obtain ⟨m, hm⟩ := h.image i
    obtain ⟨k, hk⟩ := (h.placed.copy (h.placed.mem_local (hul i))).2
    rw [hui] at hk
    have e1 : (ul i).pos = a i + fun l => (k l : ℝ) := funext hk
    refine ⟨fun l => m l + k l, ?_⟩
    have e2 : (fun l => (((m l + k l : ℤ)) : ℝ)) = (fun l => (m l : ℝ)) + fun l => (k l : ℝ) := by
      funext l; simp
    rw [e2, ok.cart_add, ok.cart_gen, e1, ok.cart_add, ok.cart_add]
    have e3 : y.cart (a i) = r i + (y.cart fun l => (m l : ℝ)) - δ i := by rw [← hm]; abel
    rw [e3]; abel
  have hbound : ∀ i l, |y.gen (δ i + y.dt • half y r v i) l| ≤ 1 / (N l : ℝ) - y.slab l := by
    intro i l
    have h1 := normSq_add_le (by linarith [ok.skin]) hρ0 (h.small i) (hstep i)
    have h2 := ok.frame.bound (y.gen (δ i + y.dt • half y r v i)) l
    rw [ok.cart_gen] at h2
    have h3 := abs_le_of_sq_le_sq (h2.trans h1) (by linarith [ok.skin])
    have hL := ok.frame.pos l
    rw [abs_mul, abs_of_pos hL] at h3
    refine le_trans ?_ (hρ l)
    rw [le_div_iff₀ hL]
    linarith
  refine ⟨fun i => (ul i).pos + y.gen (δ i + y.dt • half y r v i), ⟨h.placed.slabOK, ?_, ?_, ?_, ?_, ?_⟩, himg⟩
  · intro p w hw l
    obtain ⟨u, hu, -, hx⟩ := gathered_mem h.placed hs hw
    rw [hx, hpos p u hu, Pi.add_apply]
    obtain ⟨o1, o2⟩ := h.placed.owns hu l
    obtain ⟨b1, b2⟩ := abs_le.1 (hbound u.data.1 l)
    constructor <;> linarith
  · intro p w hw l
    obtain ⟨u, hu, -, hx⟩ := gathered_mem h.placed hs hw
    obtain ⟨m, hm⟩ := himg u.data.1
    have e1 : w.pos = y.gen (r u.data.1 + y.dt • half y r v u.data.1) + fun l => (m l : ℝ) := by
      rw [← hul' p u hu] at hm
      rw [hx, hpos p u hu, ← ok.gen_cart (u.pos + _), hm, ok.gen_add, ok.gen_cart]
    have hN : (0 : ℝ) < N l := by exact_mod_cast N_pos p l
    have key : ∀ z : ℤ, w.pos l ≠ (z : ℝ) * (1 / (N l : ℝ)) := by
      intro z hz
      apply hgen u.data.1 l (z - m l * N l)
      rw [e1, Pi.add_apply] at hz
      have : y.gen (r u.data.1 + y.dt • half y r v u.data.1) l = z * (1 / (N l : ℝ)) - m l := by linarith
      rw [this]
      push_cast
      field_simp
    constructor
    · intro e
      apply key ((p l).val + 1)
      rw [e]; unfold bound; push_cast; simp
    · intro e
      apply key ((p l).val + 2)
      rw [e]; unfold bound; push_cast; simp; ring
  · apply distinct_of_ids
    have := h.placed.local_ids
    rw [copies_ids] at this ⊢
    simp only [gathered_ids h.placed hs]
    exact this
  · intro p w hw
    obtain ⟨u, hu, hd, hx⟩ := gathered_mem h.placed hs hw
    rw [hd, hx, hpos p u hu, (hloc p u hu).2.1]
    refine ⟨rfl, ?_⟩
    show _ = (ul u.data.1).pos + _
    rw [← hul' p u hu]
  · intro i
    have : i ∈ (exchangeAtoms y.slab G (pl i)).atoms.map fun w => w.data.1 := List.mem_map.2 ⟨ul i, hul i, hui i⟩
    rw [← gathered_ids h.placed hs] at this
    obtain ⟨w, hw, e⟩ := List.mem_map.1 this
    exact ⟨pl i, w, hw, e⟩

end

end Verif.DdRun
