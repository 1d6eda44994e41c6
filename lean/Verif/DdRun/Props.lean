import Verif.DdRun.Step
import Verif.DdCellList.Wrong

/-! # C64: parallel molecular dynamics follows the velocity Verlet algorithm -/

set_option autoImplicit false

namespace Verif.DdRun

open Verif.Boundary Verif.DdExchange Verif.DdCellList Verif.Integrate

variable {N : Fin 3 → ℕ} {ι : Type}

section

variable [Fintype ι] {y : Env ι} (ok : y.OK) (hthin : y.reverse = true ∨ 2 * y.slab 2 ≤ 1 / (N 2 : ℝ))

theorem localId_slot {y : Env ι} {G : Proc N → Local (Dat ι)} {a v0 δ r v : ι → Vec} {s : Run N ι}
    (h : Tracks y G a v0 δ r v s) {p : Proc N} {u : Atom (Dat ι)} (hu : u ∈ (exchangeAtoms y.slab G p).atoms) :
    s.localId p (slot ((exchange y.slab G).atoms p) u) = some u.data.1 :=
  (localId_iff h.placed h.since).2 ⟨u, hu, rfl, rfl⟩

/-- Tracking is not affected by forces. -/
theorem Tracks.computed {G : Proc N → Local (Dat ι)} {a v0 δ r v : ι → Vec} {s : Run N ι}
    (h : Tracks y G a v0 δ r v s) : Tracks y G a v0 δ r v (y.computeForces s) :=
  ⟨h.placed, ⟨h.since.gs, h.since.nloc, h.since.lists⟩, h.small, h.pos, h.snap, h.image, h.vel⟩

include ok hthin

/-- The invariant of the main loop. -/
def Inv (N : Fin 3 → ℕ) (y : Env ι) (z : Phase ι) (s : Run N ι) : Prop :=
  ∃ G a v0 δ, Tracks y G a v0 δ z.1 z.2 s ∧
    ∀ p, ∀ u ∈ (exchangeAtoms y.slab G p).atoms, s.force p (slot ((exchange y.slab G).atoms p) u) = y.field z.1 u.data.1

theorem inv_setup {G : Proc N → Local (Dat ι)} {a v r : ι → Vec} {s : Run N ι} (h : Placed y.slab a v G)
    (hi : ∀ i, ∃ m : Fin 3 → ℤ, y.cart (a i) = r i + y.cart fun l => m l) (hs : Setup y G s) : Inv N y (r, v) s := by
  obtain ⟨P, hP, rfl⟩ := hs
  have ht := tracks_exchanged h hP hi
  exact ⟨G, a, v, 0, ht.computed, fun p u hu => ht.force ok hthin (localId_slot ht hu)⟩

/-- The second half of a step. -/
theorem inv_finish {G : Proc N → Local (Dat ι)} {a v0 δ r v : ι → Vec} {s : Run N ι} (h : Tracks y G a v0 δ r v s) :
    Inv N y (r, fun i => v i + (0.5 * y.dt / y.mass i) • y.field r i) (y.step2 (y.computeForces s)) := by
  refine ⟨G, a, v0, δ, ⟨h.placed, ⟨h.since.gs, h.since.nloc, h.since.lists⟩, h.small, h.pos, h.snap, h.image, ?_⟩, ?_⟩
  · intro p u hu
    have hl := localId_slot h.computed hu
    unfold Env.step2
    simp only [hl]
    rw [h.computed.vel p u hu, h.force ok hthin (localId_slot h hu)]
  · intro p u hu
    exact h.force ok hthin (localId_slot h hu)

theorem inv_step {z : Phase ι} {s t : Run N ι} (h : Inv N y z s) (hst : Step y s t) {ρ : ℝ} (hρ0 : 0 ≤ ρ)
    (hρ : ∀ l, (y.skin / 2 + ρ) / y.L l ≤ 1 / (N l : ℝ) - y.slab l)
    (hstep : ∀ i, normSq ((verlet y.mass y.field y.dt z).1 i - z.1 i) ≤ ρ ^ 2)
    (hgen : Generic N y (verlet y.mass y.field y.dt z).1) : Inv N y (verlet y.mass y.field y.dt z) t := by
  obtain ⟨G, a, v0, δ, ht, hF⟩ := h
  have e : verlet y.mass y.field y.dt z = (fun i => z.1 i + y.dt • half y z.1 z.2 i,
      fun i => half y z.1 z.2 i + (0.5 * y.dt / y.mass i) • y.field (fun i => z.1 i + y.dt • half y z.1 z.2 i) i) := by
    have e1 : ∀ m : ℝ, y.dt / 2 / m = 0.5 * y.dt / m := fun m => by ring
    unfold verlet kick drift half
    simp only [e1]
  rw [e] at hstep hgen ⊢
  cases hst with
  | exchange P _ hP =>
    obtain ⟨a', hp, him⟩ := ht.gathered ok hF hρ hρ0 (by
      intro i
      have := hstep i
      simp only [add_sub_cancel_left] at this
      exact this) hgen
    exact inv_finish ok hthin (tracks_exchanged hp hP him)
  | update hn => exact inv_finish ok hthin (ht.update ok hF hn)

end

/-- Requirements on a trajectory `z` of `n` steps: no coordinate falls on a boundary between
domains, and no atom moves so far in a step that, with half the skin, it is out of reach of the
exchange with the adjacent processors. -/
structure Fits (N : Fin 3 → ℕ) (y : Env ι) (z : ℕ → Phase ι) (n : ℕ) : Prop where
  generic : ∀ k ≤ n, Generic N y (z k).1
  step : ∃ ρ, 0 ≤ ρ ∧ (∀ l, (y.skin / 2 + ρ) / y.L l ≤ 1 / (N l : ℝ) - y.slab l) ∧
    ∀ k < n, ∀ i, normSq ((z (k + 1)).1 i - (z k).1 i) ≤ ρ ^ 2
  /-- without reverse communication domains are at least two cutoffs wide in the last direction -/
  thin : y.reverse = true ∨ 2 * y.slab 2 ≤ 1 / (N 2 : ℝ)

/-- Atoms given to the processors: atom `i` exactly once, at `r i` (modulo the lattice) with
velocity `v i`, at most a domain width minus a slab width outside of the domain. -/
structure Given (N : Fin 3 → ℕ) (y : Env ι) (r v : ι → Vec) (G : Proc N → Local (Dat ι)) : Prop where
  once : ∀ i, ∃! c : Proc N × ℕ, ∃ u, (G c.1).atoms[c.2]? = some u ∧ u.data.1 = i
  value : ∀ p, ∀ u ∈ (G p).atoms, u.data.2 = v u.data.1 ∧ ∃ m : Fin 3 → ℤ, y.cart u.pos = r u.data.1 + y.cart fun l => m l
  reach : WithinReach y.slab G

theorem Given.placed {y : Env ι} (ok : y.OK) (hs : SlabOK N y.slab) {r v : ι → Vec} {G : Proc N → Local (Dat ι)}
    (h : Given N y r v G) (hg : Generic N y r) : ∃ a, Placed y.slab a v G ∧
      ∀ i, ∃ m : Fin 3 → ℤ, y.cart (a i) = r i + y.cart fun l => m l := by
  have hpu : ∀ p, ∀ u ∈ (G p).atoms, ∀ q, ∀ w ∈ (G q).atoms, u.data.1 = w.data.1 → p = q ∧ u = w := by
    intro p u hu q w hw e
    obtain ⟨k, hk⟩ := List.mem_iff_getElem?.1 hu
    obtain ⟨l, hl⟩ := List.mem_iff_getElem?.1 hw
    have := (h.once u.data.1).unique (y₁ := (p, k)) (y₂ := (q, l)) ⟨u, hk, rfl⟩ ⟨w, hl, e.symm⟩
    obtain ⟨rfl, rfl⟩ := Prod.mk.inj this
    rw [hk] at hl
    exact ⟨rfl, Option.some.inj hl⟩
  have hall : ∀ i, ∃ p, ∃ u ∈ (G p).atoms, u.data.1 = i := by
    intro i
    obtain ⟨⟨p, k⟩, ⟨u, hu, e⟩, -⟩ := h.once i
    exact ⟨p, u, List.mem_of_getElem? hu, e⟩
  choose pl ul hul hui using hall
  have hu' : ∀ p, ∀ u ∈ (G p).atoms, u = ul u.data.1 := fun p u hu => (hpu p u hu _ _ (hul _) (hui _).symm).2
  refine ⟨fun i => (ul i).pos, ⟨hs, h.reach, ?_, ?_, ?_, fun i => ⟨pl i, ul i, hul i, hui i⟩⟩, ?_⟩
  · intro p u hu l
    obtain ⟨m, hm⟩ := (h.value p u hu).2
    have e1 : u.pos = y.gen (r u.data.1) + fun l => (m l : ℝ) := by
      rw [← ok.gen_cart u.pos, hm, ok.gen_add, ok.gen_cart]
    have hN : (0 : ℝ) < N l := by exact_mod_cast N_pos p l
    have key : ∀ z : ℤ, u.pos l ≠ (z : ℝ) * (1 / (N l : ℝ)) := by
      intro z hz
      apply hg u.data.1 l (z - m l * N l)
      rw [e1, Pi.add_apply] at hz
      have : y.gen (r u.data.1) l = z * (1 / (N l : ℝ)) - m l := by linarith
      rw [this]
      push_cast
      field_simp
    constructor
    · intro e
      apply key ((p l).val + 1)
      rw [e]; unfold bound; push_cast; simp
    · intro e
      apply key ((p l).val + 2)
      rw [e]; unfold bound; push_cast; simp; ring
  · unfold Distinct
    refine (Multiset.nodup_map_iff_inj_on ?_).2 ?_
    · have e : copies (fun p => (G p).atoms) = (Finset.univ : Finset (Proc N)).val.bind fun p =>
          ((G p).atoms : Multiset (Atom (Dat ι))).map (Prod.mk p) := rfl
      rw [e, Multiset.nodup_bind]
      constructor
      · intro p _
        refine Multiset.Nodup.map (Prod.mk_right_injective p) ?_
        rw [Multiset.coe_nodup, List.nodup_iff_pairwise_ne, List.pairwise_iff_getElem]
        intro k l hk hl hlt he
        have := (h.once (G p).atoms[k].data.1).unique (y₁ := (p, k)) (y₂ := (p, l))
          ⟨_, List.getElem?_eq_getElem hk, rfl⟩ ⟨_, List.getElem?_eq_getElem hl, by rw [he]⟩
        exact hlt.ne (Prod.mk.inj this).2
      · refine Multiset.Nodup.pairwise (fun p _ q _ hpq => ?_) Finset.univ.nodup
        rw [Function.onFun, Multiset.disjoint_left]
        intro c h1 h2
        obtain ⟨_, _, rfl⟩ := Multiset.mem_map.1 h1
        obtain ⟨_, _, e⟩ := Multiset.mem_map.1 h2
        exact hpq (Prod.mk.inj e).1.symm
    · rintro ⟨p, u⟩ hu ⟨q, w⟩ hw e
      obtain ⟨rfl, rfl⟩ := hpu p u (mem_copies.1 hu) q w (mem_copies.1 hw) (by rw [show u.data = w.data from e])
      rfl
  · intro p u hu
    refine ⟨(h.value p u hu).1, ?_⟩
    show u.pos = (ul u.data.1).pos
    rw [← hu' p u hu]
  · intro i
    obtain ⟨m, hm⟩ := (h.value (pl i) (ul i) (hul i)).2
    rw [hui] at hm
    exact ⟨m, hm⟩

theorem Fits.slabOK {y : Env ι} (ok : y.OK) {z : ℕ → Phase ι} {n : ℕ} (h : Fits N y z n) : SlabOK N y.slab := by
  obtain ⟨ρ, h0, h1, -⟩ := h.step
  intro l
  refine ⟨div_pos ok.cutoff_pos (ok.frame.pos l), ?_⟩
  have : 0 ≤ (y.skin / 2 + ρ) / y.L l := div_nonneg (by linarith [ok.skin]) (ok.frame.pos l).le
  linarith [h1 l]

/-- The trajectory of the specification. -/
noncomputable def Env.orbit [Fintype ι] (y : Env ι) (r v : ι → Vec) (k : ℕ) : Phase ι :=
  (verlet y.mass y.field y.dt)^[k] (r, v)

theorem inv_runs [Fintype ι] {y : Env ι} (ok : y.OK) {r v : ι → Vec} {G : Proc N → Local (Dat ι)} (hG : Given N y r v G)
    {n : ℕ} {s0 s : Run N ι} (h0 : Setup y G s0) (hr : Runs y s0 n s) (hf : Fits N y (y.orbit r v) n) :
    Inv N y (y.orbit r v n) s := by
  have hslab := hf.slabOK ok
  obtain ⟨hg, ⟨ρ, hρ0, hρ, hst⟩, hthin⟩ := hf
  obtain ⟨a, hp, him⟩ := hG.placed ok hslab (hg 0 (Nat.zero_le n))
  induction hr with
  | start => exact inv_setup ok hthin hp him h0
  | @step k t u hr hs ih =>
    have := ih (fun j hj => hg j (hj.trans (Nat.le_succ k))) (fun j hj => hst j (hj.trans (Nat.lt_succ_self k)))
    have e : y.orbit r v (k + 1) = verlet y.mass y.field y.dt (y.orbit r v k) := Function.iterate_succ_apply' _ _ _
    rw [e]
    refine inv_step ok hthin this hs hρ0 hρ ?_ ?_
    · rw [← e]; exact hst k (Nat.lt_succ_self k)
    · rw [← e]; exact hg (k + 1) le_rfl

theorem Inv.spec [Fintype ι] {y : Env ι} (ok : y.OK) {z : Phase ι} {s : Run N ι} (h : Inv N y z s) :
    (∀ i, ∃! c : Proc N × ℕ, s.localId c.1 c.2 = some i) ∧
    ∀ p k i, s.localId p k = some i → s.vel p k = z.2 i ∧ s.force p k = y.field z.1 i ∧
      ∃ m : Fin 3 → ℤ, s.pos p k = z.1 i + y.cart fun l => m l := by
  obtain ⟨G, a, v0, δ, ht, hF⟩ := h
  constructor
  · intro i
    obtain ⟨p, u, hu, rfl⟩ := ht.placed.exists_local i
    refine ⟨(p, _), localId_slot ht hu, ?_⟩
    rintro ⟨q, k⟩ hq
    obtain ⟨w, hw, e, hk⟩ := (localId_iff ht.placed ht.since).1 hq
    obtain ⟨rfl, rfl⟩ := ht.placed.local_unique hu hw e.symm
    exact Prod.ext rfl hk.symm
  · intro p k i hi
    obtain ⟨u, hu, rfl, rfl⟩ := (localId_iff ht.placed ht.since).1 hi
    refine ⟨ht.vel p u hu, hF p u hu, ?_⟩
    obtain ⟨m, hm⟩ := ht.image u.data.1
    obtain ⟨n, hn⟩ := (ht.placed.copy (ht.placed.mem_local hu)).2
    refine ⟨fun l => m l + n l, ?_⟩
    have e1 : u.pos = a u.data.1 + fun l => (n l : ℝ) := funext hn
    have e2 : (fun l => (((m l + n l : ℤ)) : ℝ)) = (fun l => (m l : ℝ)) + fun l => (n l : ℝ) := by
      funext l; simp
    rw [ht.pos p u (ht.placed.mem_local hu), e2, e1, ok.cart_add, ok.cart_add]
    have e3 : y.cart (a u.data.1) = z.1 u.data.1 + (y.cart fun l => (m l : ℝ)) - δ u.data.1 := by rw [← hm]; abel
    rw [e3]; abel

/-- **C64.** Atoms are distributed over the processors of any grid, the integrator is set up and
makes `n` steps, in which the processors decide when to exchange atoms and to rebuild lists. Then
every atom is a local atom of exactly one processor, and its velocity, force and, modulo the
lattice, position are those of `n` steps of the velocity Verlet algorithm for the whole system, in
which each atom feels all images of all other atoms. -/
theorem C64_trajectory [Fintype ι] {y : Env ι} (ok : y.OK) {r v : ι → Vec} {G : Proc N → Local (Dat ι)}
    (hG : Given N y r v G) {n : ℕ} {s0 s : Run N ι} (h0 : Setup y G s0) (hr : Runs y s0 n s)
    (hf : Fits N y (y.orbit r v) n) :
    (∀ i, ∃! c : Proc N × ℕ, s.localId c.1 c.2 = some i) ∧
    ∀ p k i, s.localId p k = some i → s.vel p k = (y.orbit r v n).2 i ∧ s.force p k = y.field (y.orbit r v n).1 i ∧
      ∃ m : Fin 3 → ℤ, s.pos p k = (y.orbit r v n).1 i + y.cart fun l => m l :=
  (inv_runs ok hG h0 hr hf).spec ok

/-! ### The program completes -/

theorem built_exists {y : Env ι} (ok : y.OK) (hn : 1 ≤ y.n) (hn4 : y.n ≤ 4)
    (hthin : y.reverse = true ∨ 2 * y.slab 2 ≤ 1 / (N 2 : ℝ)) {a v : ι → Vec} {G : Proc N → Local (Dat ι)}
    (h : Placed y.slab a v G) : ∃ P, y.Built G P := by
  have key : ∀ p : Proc N, ∃ P, Lists y.L y.cart (fun i => bound p i 0) (fun i => bound p i 1) y.cutoff y.n y.reverse
      Atom.pos (fun a b => y.masked a.data.1 b.data.1) ((exchange y.slab G).atoms p) P := by
    intro p
    refine lists_exist ok.cutoff_pos ok.frame.pos hn hn4 ?_ y.reverse ?_ _ _ _ (h.nodup p)
    · intro i
      rw [bound_diff]
      exact (h.slabOK i).2
    · refine hthin.imp id fun h2 => ?_
      rw [bound_diff]
      have hc : 0 < y.slab 2 := (h.slabOK 2).1
      change 2 * y.n ≤ axisDim (1 / (N 2 : ℝ)) (y.slab 2) y.n
      have hn' : (0 : ℝ) ≤ y.n := by exact_mod_cast (by omega)
      have h1 : ((2 * y.n : ℤ) : ℝ) ≤ 1 / (N 2 : ℝ) * y.n / y.slab 2 := by
        rw [le_div_iff₀ hc]
        push_cast
        nlinarith
      unfold axisDim
      rw [Verif.Cpp.trunc_of_nonneg (le_trans (by push_cast; linarith) h1), Int.le_floor]
      exact h1
  choose P hP using key
  exact ⟨P, hP⟩

/-- **C64, completion.** For every such trajectory the program completes all steps (with
sufficient capacities of the arrays, which are not in the model of the loop). -/
theorem C64_completes [Fintype ι] {y : Env ι} (ok : y.OK) (hn : 1 ≤ y.n) (hn4 : y.n ≤ 4) {r v : ι → Vec}
    {G : Proc N → Local (Dat ι)} (hG : Given N y r v G) {n : ℕ} (hf : Fits N y (y.orbit r v) n) :
    ∃ s0 s, Setup y G s0 ∧ Runs y s0 n s := by
  have hslab := hf.slabOK ok
  obtain ⟨a, hp, him⟩ := hG.placed ok hslab (hf.generic 0 (Nat.zero_le n))
  obtain ⟨P, hP⟩ := built_exists ok hn hn4 hf.thin hp
  refine ⟨y.computeForces (y.exchanged G P), ?_⟩
  have hset : Setup y G (y.computeForces (y.exchanged G P)) := ⟨P, hP, rfl⟩
  suffices h : ∀ k ≤ n, ∃ s, Runs y (y.computeForces (y.exchanged G P)) k s by
    obtain ⟨s, hs⟩ := h n le_rfl
    exact ⟨s, hset, hs⟩
  intro k
  induction k with
  | zero => intro _; exact ⟨_, Runs.start⟩
  | succ k ih =>
    intro hk
    obtain ⟨s, hs⟩ := ih (by omega)
    obtain ⟨ρ, hρ0, hρ, hst⟩ := hf.step
    obtain ⟨G', a', v0, δ, ht, hF⟩ := inv_runs ok hG hset hs ⟨fun j hj => hf.generic j (by omega),
      ⟨ρ, hρ0, hρ, fun j hj => hst j (by omega)⟩, hf.thin⟩
    by_cases hnd : y.Needed (y.step1 s)
    · have e : y.orbit r v (k + 1) = verlet y.mass y.field y.dt (y.orbit r v k) := Function.iterate_succ_apply' _ _ _
      have e1 : (verlet y.mass y.field y.dt (y.orbit r v k)).1 = fun i => (y.orbit r v k).1 i +
          y.dt • half y (y.orbit r v k).1 (y.orbit r v k).2 i := by
        have e1 : ∀ m : ℝ, y.dt / 2 / m = 0.5 * y.dt / m := fun m => by ring
        unfold verlet kick drift half
        simp only [e1]
      obtain ⟨a'', hp', -⟩ := ht.gathered ok hF hρ hρ0 (by
        intro i
        have := hst k (by omega) i
        rw [e, e1] at this
        simp only [add_sub_cancel_left] at this
        exact this) (by
        have := hf.generic (k + 1) hk
        rw [e, e1] at this
        exact this)
      obtain ⟨P', hP'⟩ := built_exists ok hn hn4 hf.thin hp'
      exact ⟨_, hs.step (Step.exchange s P' hnd hP')⟩
    · exact ⟨_, hs.step (Step.update s hnd)⟩

/-! ### Consequences -/

/-- **C64, independence of the grid.** Two simulations of the same system on different grids, with
different initial distributions, skins, numbers of cells and modes of communication, agree. -/
theorem C64_grid_independent [Fintype ι] {N N' : Fin 3 → ℕ} {y : Env ι} (ok : y.OK) {skin' : ℝ} {n' : ℤ} {reverse' : Bool}
    (ok' : ({ y with skin := skin', n := n', reverse := reverse' } : Env ι).OK) {r v : ι → Vec}
    {G : Proc N → Local (Dat ι)} {G' : Proc N' → Local (Dat ι)} (hG : Given N y r v G)
    (hG' : Given N' { y with skin := skin', n := n', reverse := reverse' } r v G') {n : ℕ} {s0 s : Run N ι} {s0' s' : Run N' ι}
    (h0 : Setup y G s0) (hr : Runs y s0 n s) (h0' : Setup { y with skin := skin', n := n', reverse := reverse' } G' s0')
    (hr' : Runs { y with skin := skin', n := n', reverse := reverse' } s0' n s') (hf : Fits N y (y.orbit r v) n)
    (hf' : Fits N' { y with skin := skin', n := n', reverse := reverse' } (y.orbit r v) n) (i : ι) :
    ∃ p k p' k', s.localId p k = some i ∧ s'.localId p' k' = some i ∧ s.vel p k = s'.vel p' k' ∧
      s.force p k = s'.force p' k' ∧ ∃ m : Fin 3 → ℤ, s.pos p k = s'.pos p' k' + y.cart fun l => m l := by
  obtain ⟨h1, h2⟩ := C64_trajectory ok hG h0 hr hf
  obtain ⟨h1', h2'⟩ := C64_trajectory ok' hG' h0' hr' hf'
  obtain ⟨⟨p, k⟩, hk, -⟩ := h1 i
  obtain ⟨⟨p', k'⟩, hk', -⟩ := h1' i
  obtain ⟨a1, a2, m, a3⟩ := h2 p k i hk
  obtain ⟨b1, b2, m', b3⟩ := h2' p' k' i hk'
  refine ⟨p, k, p', k', hk, hk', a1.trans b1.symm, a2.trans b2.symm, fun l => m l - m' l, ?_⟩
  have e : (fun l => (((m l - m' l : ℤ)) : ℝ)) = (fun l => (m l : ℝ)) - fun l => (m' l : ℝ) := by
    funext l; simp
  have b3' : s'.pos p' k' = (y.orbit r v n).1 i + y.cart fun l => (m' l : ℝ) := b3
  rw [e, ok.cart_sub, a3, b3']
  abel

/-- Sum of the momenta of the local atoms of all processors. -/
noncomputable def Run.momentum (y : Env ι) (s : Run N ι) : Vec :=
  ∑ p, ∑ k ∈ Finset.range (s.nloc p), (s.localId p k).elim 0 fun i => y.mass i • s.vel p k

/-- **C64, momentum.** The total momentum of the local atoms of all processors is conserved. -/
theorem C64_momentum [Fintype ι] {y : Env ι} (ok : y.OK) (hm : ∀ i, y.mass i ≠ 0) {r v : ι → Vec}
    {G : Proc N → Local (Dat ι)} (hG : Given N y r v G) {n : ℕ} {s0 s : Run N ι} (h0 : Setup y G s0) (hr : Runs y s0 n s)
    (hf : Fits N y (y.orbit r v) n) : s.momentum y = ∑ i, y.mass i • v i := by
  classical
  obtain ⟨h1, h2⟩ := C64_trajectory ok hG h0 hr hf
  have e0 : ∀ k, momentum y.mass (y.orbit r v k).2 = momentum y.mass v := by
    intro k
    induction k with
    | zero => rfl
    | succ k ih =>
      rw [show y.orbit r v (k + 1) = verlet y.mass y.field y.dt (y.orbit r v k) from Function.iterate_succ_apply' _ _ _,
        momentum_verlet y.mass hm y.field (field_sum ok), ih]
  have e1 := e0 n
  unfold momentum at e1
  rw [← e1]
  unfold Run.momentum
  have e2 : ∀ p k, ((s.localId p k).elim 0 fun i => y.mass i • s.vel p k) =
      ∑ i, if s.localId p k = some i then y.mass i • (y.orbit r v n).2 i else 0 := by
    intro p k
    cases hk : s.localId p k with
    | none => simp
    | some i =>
      rw [Finset.sum_eq_single i]
      · simp [(h2 p k i hk).1]
      · intro j _ hj
        rw [if_neg]
        exact fun e => hj (Option.some.inj e).symm
      · intro h; exact absurd (Finset.mem_univ i) h
  simp only [e2]
  have e3 : ∀ p, (∑ k ∈ Finset.range (s.nloc p), ∑ i, if s.localId p k = some i then y.mass i • (y.orbit r v n).2 i else 0) =
      ∑ i, ∑ k ∈ Finset.range (s.nloc p), if s.localId p k = some i then y.mass i • (y.orbit r v n).2 i else 0 :=
    fun p => Finset.sum_comm
  simp only [e3]
  rw [Finset.sum_comm]
  refine Finset.sum_congr rfl fun i _ => ?_
  obtain ⟨⟨p, k⟩, hk, hu⟩ := h1 i
  have hkl : k < s.nloc p := by
    by_contra hc
    unfold Run.localId at hk
    simp [hc] at hk
  rw [Finset.sum_eq_single p, Finset.sum_eq_single k, if_pos hk]
  · intro l _ hl
    rw [if_neg]
    exact fun e => hl (Prod.mk.inj (hu (p, l) e)).2
  · intro h; exact absurd (Finset.mem_range.2 hkl) h
  · intro q _ hq
    refine Finset.sum_eq_zero fun l _ => ?_
    rw [if_neg]
    exact fun e => hq (Prod.mk.inj (hu (q, l) e)).1
  · intro h; exact absurd (Finset.mem_univ p) h

/-- **C64, reversal.** After `n` steps the velocities are reversed, the atoms are distributed in
any way, and `n` more steps are made: the atoms return with reversed velocities. -/
theorem C64_reversal [Fintype ι] {y : Env ι} (ok : y.OK) {r v : ι → Vec} {n : ℕ} {G' : Proc N → Local (Dat ι)}
    (hG' : Given N y (y.orbit r v n).1 (fun i => -(y.orbit r v n).2 i) G') {s0' s' : Run N ι}
    (h0' : Setup y G' s0') (hr' : Runs y s0' n s')
    (hf' : Fits N y (y.orbit (y.orbit r v n).1 fun i => -(y.orbit r v n).2 i) n) :
    ∀ p k i, s'.localId p k = some i → s'.vel p k = - v i ∧ ∃ m : Fin 3 → ℤ, s'.pos p k = r i + y.cart fun l => m l := by
  obtain ⟨-, h2⟩ := C64_trajectory ok hG' h0' hr' hf'
  have e : y.orbit (y.orbit r v n).1 (fun i => -(y.orbit r v n).2 i) n = flip (r, v) :=
    iterate_flip (verlet_flip y.mass y.field y.dt) n (r, v)
  intro p k i hi
  obtain ⟨a1, -, m, a3⟩ := h2 p k i hi
  rw [e] at a1 a3
  exact ⟨a1, m, a3⟩

end Verif.DdRun
