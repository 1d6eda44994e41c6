import Verif.DdRun.Placed
import Verif.Integrate.Pairs

/-! # The forces computed by all processors -/

set_option autoImplicit false

namespace Verif.DdRun

open Verif.Boundary Verif.DdExchange Verif.DdCellList

variable {N : Fin 3 → ℕ} {ι : Type}

open Classical in
/-- Sum over entries, given what the entries stand for. -/
theorem entries_field [Fintype ι] {y : Env ι} (ok : y.OK) {a v δ : ι → Vec} {G : Proc N → Local (Dat ι)}
    (h : Placed y.slab a v G) (hδ : ∀ i, normSq (δ i) ≤ (y.skin / 2) ^ 2) {X : Proc N → ℕ → Vec}
    (hX : ∀ p, ∀ u ∈ (exchange y.slab G).atoms p,
      X p (slot ((exchange y.slab G).atoms p) u) = y.cart u.pos + δ u.data.1)
    (i : ι) (E : Finset (Proc N × Atom (Dat ι) × Atom (Dat ι)))
    (hE : ∀ t ∈ E, t.2.1 ∈ (exchange y.slab G).atoms t.1 ∧ t.2.2 ∈ (exchange y.slab G).atoms t.1 ∧
      t.2.1 ≠ t.2.2 ∧ ¬ y.masked t.2.1.data.1 t.2.2.data.1 ∧ normSq (y.cart (t.2.2.pos - t.2.1.pos)) < y.cutoff ^ 2 ∧
      (t.2.1.data.1 = i ∨ t.2.2.data.1 = i))
    (hex : ∀ j, j ≠ i → ¬ y.masked i j → ∀ w, SameImage (a j - a i) w → normSq (y.cart w) < y.cutoff ^ 2 →
      ∃! t, t ∈ E ∧ StandsFor (i, v i) (j, v j) w t) :
    ∑ t ∈ E, (if t.2.1.data.1 = i then y.entryForce ((exchange y.slab G).atoms t.1) (X t.1) t.2
      else - y.entryForce ((exchange y.slab G).atoms t.1) (X t.1) t.2) =
      y.field (fun i => y.cart (a i) + δ i) i := by
  have hstand : ∀ t ∈ E, (t.2.1.data.1 = i → t.2.2.data.1 ≠ i) ∧ (t.2.1.data.1 ≠ i → t.2.2.data.1 = i) := by
    intro t ht
    obtain ⟨h1, h2, h3, -, h5, h6⟩ := hE t ht
    have := h.ids_ne ok rfl h1 h2 h3 h5
    refine ⟨fun e e' => this (e.trans e'.symm), fun e => h6.resolve_left e⟩
  unfold Env.field
  rw [sum_entries E (fun t => if t.2.1.data.1 = i then t.2.2.data.1 else t.2.1.data.1)
    (fun t => if t.2.1.data.1 = i then t.2.2.pos - t.2.1.pos else t.2.1.pos - t.2.2.pos)
    (fun t => if t.2.1.data.1 = i then y.entryForce ((exchange y.slab G).atoms t.1) (X t.1) t.2
      else - y.entryForce ((exchange y.slab G).atoms t.1) (X t.1) t.2)
    (fun j k => y.pairForce i j (y.cart (a i) + δ i - (y.cart (a j) + δ j + y.cart fun l => k l)))
    a i (fun j => j ≠ i ∧ ¬ y.masked i j)]
  · intro t ht
    obtain ⟨h1, h2, h3, h4, h5, h6⟩ := hE t ht
    obtain ⟨s1, s2⟩ := hstand t ht
    obtain ⟨k1, e1⟩ := (h.copy h1).2
    obtain ⟨k2, e2⟩ := (h.copy h2).2
    by_cases e : t.2.1.data.1 = i
    · simp only [if_pos e]
      refine ⟨⟨s1 e, e ▸ h4⟩, fun l => k2 l - k1 l, fun l => ?_⟩
      rw [e] at e1
      simp only [Pi.sub_apply]
      rw [e1 l, e2 l]; push_cast; ring
    · simp only [if_neg e]
      refine ⟨⟨e, fun hm => h4 (ok.mask_symm _ _ ?_)⟩, fun l => k1 l - k2 l, fun l => ?_⟩
      · rw [s2 e]; exact hm
      · rw [s2 e] at e2
        simp only [Pi.sub_apply]
        rw [e1 l, e2 l]; push_cast; ring
  · rintro j k ⟨hj, hm⟩ hg
    have hr := ok.pairForce_ne hg
    have hw : normSq (y.cart fun l => a j l - a i l + k l) < y.cutoff ^ 2 := by
      have e : (y.cart fun l => a j l - a i l + k l) = δ i + (- δ j +
          -(y.cart (a i) + δ i - (y.cart (a j) + δ j + y.cart fun l => k l))) := by
        have : (fun l => a j l - a i l + k l) = (a j - a i) + fun l => (k l : ℝ) := rfl
        rw [this, ok.cart_add, ok.cart_sub]
        abel
      rw [e]
      have hs2 : 0 ≤ y.skin / 2 := by linarith [ok.skin]
      have b1 := Verif.Integrate.normSq_add_lt hs2 ok.range (u := - δ j) (by rw [normSq_neg]; exact hδ j)
        (v := -(y.cart (a i) + δ i - (y.cart (a j) + δ j + y.cart fun l => k l))) (by rw [normSq_neg]; exact hr)
      have b2 := Verif.Integrate.normSq_add_lt hs2 (by linarith [ok.range]) (hδ i) b1
      have e3 : y.skin / 2 + (y.skin / 2 + y.range) = y.cutoff := by unfold Env.cutoff; ring
      rwa [e3] at b2
    obtain ⟨t, ⟨ht, hs⟩, -⟩ := hex j hj hm _ ⟨k, fun _ => rfl⟩ hw
    refine ⟨t, ht, ?_⟩
    rcases hs with ⟨d1, d2, d3⟩ | ⟨d1, d2, d3⟩
    · have e1 : t.2.1.data.1 = i := by rw [d1]
      have e2 : t.2.2.data.1 = j := by rw [d2]
      simp only [if_pos e1]
      exact ⟨e2, d3⟩
    · have e1 : t.2.1.data.1 = j := by rw [d1]
      have e2 : ¬ t.2.1.data.1 = i := by rw [e1]; exact hj
      simp only [if_neg e2]
      refine ⟨e1, ?_⟩
      rw [← neg_sub, d3, neg_neg]; rfl
  · intro t ht t' ht' hJ hW
    have key : ∀ t ∈ E, ((if t.2.1.data.1 = i then t.2.2.data.1 else t.2.1.data.1) ≠ i ∧
        ¬ y.masked i (if t.2.1.data.1 = i then t.2.2.data.1 else t.2.1.data.1)) ∧
        SameImage (a (if t.2.1.data.1 = i then t.2.2.data.1 else t.2.1.data.1) - a i)
          (if t.2.1.data.1 = i then t.2.2.pos - t.2.1.pos else t.2.1.pos - t.2.2.pos) ∧
        normSq (y.cart (if t.2.1.data.1 = i then t.2.2.pos - t.2.1.pos else t.2.1.pos - t.2.2.pos)) < y.cutoff ^ 2 ∧
        StandsFor (i, v i) (if t.2.1.data.1 = i then t.2.2.data.1 else t.2.1.data.1,
          v (if t.2.1.data.1 = i then t.2.2.data.1 else t.2.1.data.1))
          (if t.2.1.data.1 = i then t.2.2.pos - t.2.1.pos else t.2.1.pos - t.2.2.pos) t := by
      intro t ht
      obtain ⟨h1, h2, h3, h4, h5, h6⟩ := hE t ht
      obtain ⟨s1, s2⟩ := hstand t ht
      obtain ⟨k1, e1⟩ := (h.copy h1).2
      obtain ⟨k2, e2⟩ := (h.copy h2).2
      have c1 := (h.copy h1).1
      have c2 := (h.copy h2).1
      by_cases e : t.2.1.data.1 = i
      · simp only [if_pos e]
        refine ⟨⟨s1 e, e ▸ h4⟩, ⟨fun l => k2 l - k1 l, fun l => ?_⟩, h5, Or.inl ⟨by rw [c1, e], c2, rfl⟩⟩
        rw [e] at e1
        simp only [Pi.sub_apply]
        rw [e1 l, e2 l]; push_cast; ring
      · simp only [if_neg e]
        refine ⟨⟨e, fun hm => h4 (ok.mask_symm _ _ ?_)⟩, ⟨fun l => k1 l - k2 l, fun l => ?_⟩, ?_,
          Or.inr ⟨c1, by rw [c2, s2 e], by abel⟩⟩
        · rw [s2 e]; exact hm
        · rw [s2 e] at e2
          simp only [Pi.sub_apply]
          rw [e1 l, e2 l]; push_cast; ring
        · rw [← neg_sub, ok.cart_neg, normSq_neg]; exact h5
    obtain ⟨⟨g1, g2⟩, g3, g4, g5⟩ := key t ht
    obtain ⟨-, -, -, g5'⟩ := key t' ht'
    rw [← hJ, ← hW] at g5'
    exact (hex _ g1 g2 _ g3 g4).unique ⟨ht, g5⟩ ⟨ht', g5'⟩
  · intro t ht k hk
    obtain ⟨h1, h2, -⟩ := hE t ht
    obtain ⟨s1, s2⟩ := hstand t ht
    unfold Env.entryForce
    rw [hX _ _ h1, hX _ _ h2]
    by_cases e : t.2.1.data.1 = i
    · simp only [if_pos e] at hk ⊢
      rw [e]
      congr 1
      have e4 : (fun l => a t.2.2.data.1 l - a i l + k l) = (a t.2.2.data.1 - a i) + fun l => (k l : ℝ) := rfl
      have e5 := congrArg y.cart hk
      rw [e4, ok.cart_add, ok.cart_sub, ok.cart_sub] at e5
      have e6 : (y.cart fun l => (k l : ℝ)) = y.cart t.2.2.pos - y.cart t.2.1.pos - (y.cart (a t.2.2.data.1) - y.cart (a i)) := by
        rw [e5]; abel
      rw [e6]; abel
    · simp only [if_neg e] at hk ⊢
      rw [s2 e, ← ok.pairForce_neg]
      congr 1
      have e4 : (fun l => a t.2.1.data.1 l - a i l + k l) = (a t.2.1.data.1 - a i) + fun l => (k l : ℝ) := rfl
      have e5 := congrArg y.cart hk
      rw [e4, ok.cart_add, ok.cart_sub, ok.cart_sub] at e5
      have e6 : (y.cart fun l => (k l : ℝ)) = y.cart t.2.1.pos - y.cart t.2.2.pos - (y.cart (a t.2.1.data.1) - y.cart (a i)) := by
        rw [e5]; abel
      rw [e6]; abel

/-- The state since the last exchange. -/
structure Since (y : Env ι) (G : Proc N → Local (Dat ι)) (s : Run N ι) : Prop where
  gs : s.gs = exchange y.slab G
  nloc : ∀ p, s.nloc p = (exchangeAtoms y.slab G p).atoms.length
  lists : y.Built G s.pairs

theorem localId_iff {y : Env ι} {a v : ι → Vec} {G : Proc N → Local (Dat ι)} {s : Run N ι}
    (h : Placed y.slab a v G) (hs : Since y G s) {p : Proc N} {k : ℕ} {i : ι} :
    s.localId p k = some i ↔ ∃ u ∈ (exchangeAtoms y.slab G p).atoms, u.data.1 = i ∧
      slot ((exchange y.slab G).atoms p) u = k := by
  obtain ⟨gh, e⟩ := h.split p
  unfold Run.localId
  rw [hs.gs, hs.nloc]
  constructor
  · intro hk
    split at hk
    · rename_i hl
      obtain ⟨u, hu, rfl⟩ := Option.map_eq_some_iff.1 hk
      have hs := slot_of_get (h.nodup p) hu
      have hm := List.mem_of_getElem? hu
      exact ⟨u, (h.slot_lt_iff hm).1 (hs ▸ hl), rfl, hs⟩
    · simp at hk
  · rintro ⟨u, hu, rfl, rfl⟩
    rw [if_pos ((h.slot_lt_iff (h.mem_local hu)).2 hu), slot_get (h.mem_local hu)]
    rfl

theorem sum_ite_slot (n : ℕ) (q : ℕ → Prop) [DecidablePred q] (m : ℕ) (hm : m < n) (f : Vec) :
    (∑ k ∈ Finset.range n, if q k then (if m = k then f else 0) else 0) = if q m then f else 0 := by
  rw [Finset.sum_eq_single m]
  · rw [if_pos rfl]
  · intro k _ hk
    rw [if_neg (Ne.symm hk)]; simp
  · intro hk; exact absurd (Finset.mem_range.2 hm) hk

set_option maxHeartbeats 1000000 in
/-- **Forces with reverse communication.** -/
theorem force_reverse [Fintype ι] {y : Env ι} (ok : y.OK) (hrev : y.reverse = true) {a v δ : ι → Vec}
    {G : Proc N → Local (Dat ι)} (h : Placed y.slab a v G) (hδ : ∀ i, normSq (δ i) ≤ (y.skin / 2) ^ 2)
    {s : Run N ι} (hs : Since y G s)
    (hX : ∀ p, ∀ u ∈ (exchange y.slab G).atoms p,
      s.pos p (slot ((exchange y.slab G).atoms p) u) = y.cart u.pos + δ u.data.1)
    {p : Proc N} {k : ℕ} {i : ι} (hi : s.localId p k = some i) :
    (y.computeForces s).force p k = y.field (fun i => y.cart (a i) + δ i) i := by
  classical
  obtain ⟨u, hu, hui, huk⟩ := (localId_iff h hs).1 hi
  have hP := hs.lists
  rw [show y.Built G s.pairs ↔ _ from Iff.rfl] at hP
  unfold Env.Built at hP
  rw [hrev] at hP
  obtain ⟨hnd, hpair, hmem⟩ := held_pairs ok.frame ok.cutoff_pos (masked := fun d e => y.masked d.1 e.1)
    (fun _ _ => ok.mask_symm _ _) h.held s.pairs hP
  obtain ⟨S, hS⟩ : ∃ S, S = (exchange y.slab G).atoms := ⟨_, rfl⟩
  obtain ⟨F, hF⟩ : ∃ F : Proc N → ℕ → Vec, F = fun p =>
    (s.pairs p).foldl (y.addPair (s.gs.atoms p) (s.nloc p) (s.pos p)) (y.zeroForces s p) := ⟨_, rfl⟩
  have e0 : (y.computeForces s).force = reverseUpdate s.gs F := by
    unfold Env.computeForces
    simp only [hrev, if_true, hF]
  have hget : ∀ q, ∀ m < (exchangeAtoms y.slab G q).atoms.length, (S q)[m]? = (exchangeAtoms y.slab G q).atoms[m]? := by
    intro q m hm
    obtain ⟨gh, e⟩ := h.split q
    rw [hS, e, List.getElem?_append_left hm]
  have hlen : ∀ q, (exchangeAtoms y.slab G q).atoms.length ≤ (S q).length := by
    intro q
    obtain ⟨gh, e⟩ := h.split q
    rw [hS, e, List.length_append]; omega
  have hk : (exchangeAtoms y.slab G p).atoms[k]? = some u := by
    rw [← hget p k (huk ▸ (h.slot_lt_iff (h.mem_local hu)).2 hu), ← huk, hS]
    exact slot_get (h.mem_local hu)
  have hu2 : u.data = (i, v i) := by rw [(h.copy (h.mem_local hu)).1, hui]
  rw [e0, hs.gs, C18_exchange y.slab G h.distinct F p k u hk, ← hS]
  -- all slots with the id
  have hid : ∀ (q : Proc N) (m : ℕ), ((S q)[m]?.map (fun b : Atom (Dat ι) => b.data) = some u.data) ↔ ((S q)[m]?.map fun b : Atom (Dat ι) => b.data.1) = some i := by
    intro q m
    cases e : (S q)[m]? with
    | none => simp
    | some b =>
      have hb : b ∈ (exchange y.slab G).atoms q := by rw [← hS]; exact List.mem_of_getElem? e
      simp only [Option.map_some, Option.some.injEq]
      rw [hu2, (h.copy hb).1]
      constructor
      · intro e; rw [Prod.mk.injEq] at e; exact e.1
      · rintro rfl; rfl
  have htot : F p k + ∑ q, ∑ m ∈ Finset.Ico (exchangeAtoms y.slab G q).atoms.length (S q).length,
        (if (S q)[m]?.map (fun b : Atom (Dat ι) => b.data) = some u.data then F q m else 0) =
      ∑ q, ∑ m ∈ Finset.range (S q).length, if ((S q)[m]?.map fun b : Atom (Dat ι) => b.data.1) = some i then F q m else 0 := by
    have e1 : F p k = ∑ q, ∑ m ∈ Finset.range (exchangeAtoms y.slab G q).atoms.length,
        if ((S q)[m]?.map fun b : Atom (Dat ι) => b.data.1) = some i then F q m else 0 := by
      have only : ∀ (q : Proc N) (m : ℕ), m < (exchangeAtoms y.slab G q).atoms.length →
          ((S q)[m]?.map fun b : Atom (Dat ι) => b.data.1) = some i → q = p ∧ m = k := by
        intro q m hm e
        obtain ⟨w, hw, hwi⟩ := Option.map_eq_some_iff.1 e
        have hw' := hw
        rw [hget q m hm] at hw
        obtain ⟨rfl, rfl⟩ := h.local_unique (List.mem_of_getElem? hw) hu (hwi.trans hui.symm)
        refine ⟨rfl, ?_⟩
        rw [← huk, slot_of_get (h.nodup q) (k := m)]
        rw [← hS]; exact hw'
      have hkk : k < (exchangeAtoms y.slab G p).atoms.length := (List.getElem?_eq_some_iff.1 hk).1
      rw [Finset.sum_eq_single p, Finset.sum_eq_single k, if_pos]
      · rw [hget p k hkk, hk]; simp [hui]
      · intro m hm hne
        rw [if_neg]
        exact fun e => hne (only p m (Finset.mem_range.1 hm) e).2
      · intro hc; exact absurd (Finset.mem_range.2 hkk) hc
      · intro q _ hne
        refine Finset.sum_eq_zero fun m hm => ?_
        rw [if_neg]
        exact fun e => hne (only q m (Finset.mem_range.1 hm) e).1
      · intro hc; exact absurd (Finset.mem_univ p) hc
    rw [e1, ← Finset.sum_add_distrib]
    refine Finset.sum_congr rfl fun q _ => ?_
    rw [← Finset.sum_range_add_sum_Ico _ (hlen q)]
    congr 1
    refine Finset.sum_congr rfl fun m _ => ?_
    simp only [hid]
  refine Eq.trans (Eq.trans ?_ htot) ?_
  · congr!
  obtain ⟨f, hf⟩ : ∃ f : Proc N → Atom (Dat ι) × Atom (Dat ι) → Vec, f = fun q => y.entryForce (S q) (s.pos q) := ⟨_, rfl⟩
  have hFq : ∀ q m, F q m = ∑ e ∈ (s.pairs q).toFinset, ((if slot (S q) e.1 = m then f q e else 0) +
      (if slot (S q) e.2 = m then - f q e else 0)) := by
    intro q m
    rw [hF, List.sum_toFinset _ (hnd q)]
    simp only
    rw [foldl_addPair, hs.gs, ← hS, hf]
    have : y.zeroForces s q m = 0 := by unfold Env.zeroForces; simp [hrev]
    rw [this, zero_add]
    simp only [hrev, true_or, true_and]
  have hsum : ∀ q, (∑ m ∈ Finset.range (S q).length, if ((S q)[m]?.map fun b : Atom (Dat ι) => b.data.1) = some i then F q m else 0) =
      ∑ e ∈ (s.pairs q).toFinset, ((if e.1.data.1 = i then f q e else 0) + (if e.2.data.1 = i then - f q e else 0)) := by
    intro q
    have : ∀ m, (if ((S q)[m]?.map fun b : Atom (Dat ι) => b.data.1) = some i then F q m else 0) =
        ∑ e ∈ (s.pairs q).toFinset, ((if ((S q)[m]?.map fun b : Atom (Dat ι) => b.data.1) = some i then (if slot (S q) e.1 = m then f q e else 0) else 0) +
        (if ((S q)[m]?.map fun b : Atom (Dat ι) => b.data.1) = some i then (if slot (S q) e.2 = m then - f q e else 0) else 0)) := by
      intro m
      split
      · rw [hFq]
      · simp
    simp only [this]
    rw [Finset.sum_comm]
    refine Finset.sum_congr rfl fun e he => ?_
    obtain ⟨m1, m2, -⟩ := hmem q e (List.mem_toFinset.1 he)
    rw [← hS] at m1 m2
    rw [Finset.sum_add_distrib, sum_ite_slot _ _ _ (slot_lt m1), sum_ite_slot _ _ _ (slot_lt m2), slot_get m1, slot_get m2]
    simp
  rw [Finset.sum_congr rfl fun q _ => hsum q]
  obtain ⟨E, hE⟩ : ∃ E : Finset (Proc N × Atom (Dat ι) × Atom (Dat ι)), E = Finset.univ.biUnion fun q =>
    ((s.pairs q).toFinset.filter fun e => e.1.data.1 = i ∨ e.2.data.1 = i).image (Prod.mk q) := ⟨_, rfl⟩
  have hEm : ∀ t, t ∈ E ↔ t.2 ∈ s.pairs t.1 ∧ (t.2.1.data.1 = i ∨ t.2.2.data.1 = i) := by
    rintro ⟨q, e⟩
    simp [hE]
  rw [← entries_field ok h hδ hX i E ?_ ?_, hE, Finset.sum_biUnion ?_]
  · refine Finset.sum_congr rfl fun q _ => ?_
    rw [Finset.sum_image (by intro x _ z _ e; exact (Prod.mk.inj e).2), Finset.sum_filter]
    refine Finset.sum_congr rfl fun e he => ?_
    obtain ⟨m1, m2, m3, m4, m5⟩ := hmem q e (List.mem_toFinset.1 he)
    have := h.ids_ne ok rfl m1 m2 m3 m5
    rw [← hS, hf]
    by_cases c1 : e.1.data.1 = i
    · have c2 : ¬ e.2.data.1 = i := fun c => this (c1.trans c.symm)
      simp [c1, c2]
    · by_cases c2 : e.2.data.1 = i
      · simp [c1, c2]
      · simp [c1, c2]
  · intro q _ q' _ hne
    rw [Function.onFun, Finset.disjoint_left]
    intro t ht ht'
    obtain ⟨_, _, rfl⟩ := Finset.mem_image.1 ht
    obtain ⟨_, _, e⟩ := Finset.mem_image.1 ht'
    exact hne (Prod.mk.inj e).1.symm
  · intro t ht
    obtain ⟨h1, h2⟩ := (hEm t).1 ht
    obtain ⟨m1, m2, m3, m4, m5⟩ := hmem t.1 t.2 h1
    exact ⟨m1, m2, m3, m4, m5, h2⟩
  · intro j hj hm w hw hc
    obtain ⟨t, ⟨t1, t2⟩, t3⟩ := hpair (i, v i) (a i) ⟨rfl, rfl⟩ (j, v j) (a j) ⟨rfl, rfl⟩
      (fun e => hj (Prod.mk.inj e).1.symm) hm w hw hc
    refine ⟨t, ⟨(hEm t).2 ⟨t1, ?_⟩, t2⟩, ?_⟩
    · rcases t2 with ⟨d, -⟩ | ⟨-, d, -⟩
      · left; rw [d]
      · right; rw [d]
    · rintro t' ⟨h1, h2⟩
      exact t3 t' ⟨((hEm t').1 h1).1, h2⟩

/-- **Forces without reverse communication.** -/
theorem force_forward [Fintype ι] {y : Env ι} (ok : y.OK) (hrev : y.reverse = false)
    (hthin : 2 * y.slab 2 ≤ 1 / (N 2 : ℝ)) {a v δ : ι → Vec}
    {G : Proc N → Local (Dat ι)} (h : Placed y.slab a v G) (hδ : ∀ i, normSq (δ i) ≤ (y.skin / 2) ^ 2)
    {s : Run N ι} (hs : Since y G s)
    (hX : ∀ p, ∀ u ∈ (exchange y.slab G).atoms p,
      s.pos p (slot ((exchange y.slab G).atoms p) u) = y.cart u.pos + δ u.data.1)
    {p : Proc N} {k : ℕ} {i : ι} (hi : s.localId p k = some i) :
    (y.computeForces s).force p k = y.field (fun i => y.cart (a i) + δ i) i := by
  classical
  obtain ⟨u, hu, hui, huk⟩ := (localId_iff h hs).1 hi
  have huS := h.mem_local hu
  obtain ⟨gh, hgh⟩ := h.split p
  have hL := hs.lists p
  have hnd := h.nodup p
  have hghost : ∀ b ∈ gh, ¬ Owns p b.pos := by
    intro b hb ho
    have hbS : b ∈ (exchange y.slab G).atoms p := by rw [hgh]; exact List.mem_append_right _ hb
    have := h.local_of_owns hbS ho
    rw [hgh] at hnd
    exact (List.disjoint_of_nodup_append hnd) this hb
  rw [hgh] at hL
  obtain ⟨hPn, hmem, hxor, hall⟩ := C22_processor_partial ok.frame ok.cutoff_pos
    (masked := fun a b : Atom (Dat ι) => y.masked a.data.1 b.data.1) (fun _ _ => ok.mask_symm _ _)
    (by rw [← hgh]; exact hnd) (fun b hb => h.owns hb) hghost (Or.inr (by rw [bound_diff]; exact hthin)) hL
  have hmem' : ∀ e ∈ s.pairs p, e.1 ∈ (exchangeAtoms y.slab G p).atoms ∧ e.2 ∈ (exchange y.slab G).atoms p ∧
      e.1 ≠ e.2 ∧ ¬ y.masked e.1.data.1 e.2.data.1 ∧ normSq (y.cart (e.2.pos - e.1.pos)) < y.cutoff ^ 2 := by
    rintro ⟨b, c⟩ hbc
    obtain ⟨m1, m2, m3, m4, m5⟩ := hmem b c hbc
    unfold Within at m4
    rw [ok.frame.lin] at m4
    exact ⟨m1, by rw [hgh]; exact m2, m3, m5, m4⟩
  have hu2 : u.data = (i, v i) := by rw [(h.copy huS).1, hui]
  have huniq : ∀ b ∈ (exchangeAtoms y.slab G p).atoms, b.data.1 = i → b = u := fun b hb e =>
    (h.local_unique hb hu (e.trans hui.symm)).2
  obtain ⟨E, hE⟩ : ∃ E : Finset (Proc N × Atom (Dat ι) × Atom (Dat ι)), E =
    ((s.pairs p).toFinset.filter fun e => e.1 = u ∨ e.2 = u).image (Prod.mk p) := ⟨_, rfl⟩
  have hEm : ∀ t, t ∈ E ↔ t.1 = p ∧ t.2 ∈ s.pairs p ∧ (t.2.1 = u ∨ t.2.2 = u) := by
    rintro ⟨q, e⟩
    rw [hE, Finset.mem_image]
    constructor
    · rintro ⟨e', he', h'⟩
      obtain ⟨rfl, rfl⟩ := Prod.mk.inj h'
      rw [Finset.mem_filter, List.mem_toFinset] at he'
      exact ⟨rfl, he'⟩
    · rintro ⟨h1, h2⟩
      obtain rfl : q = p := h1
      exact ⟨e, by rw [Finset.mem_filter, List.mem_toFinset]; exact h2, rfl⟩
  have e0 : (y.computeForces s).force p k = ∑ e ∈ (s.pairs p).toFinset,
      ((if e.1 = u then y.entryForce ((exchange y.slab G).atoms p) (s.pos p) e else 0) +
      (if e.2 = u then - y.entryForce ((exchange y.slab G).atoms p) (s.pos p) e else 0)) := by
    unfold Env.computeForces
    simp only [hrev, Bool.false_eq_true, if_false]
    have hkl : k < s.nloc p := by rw [hs.nloc, ← huk]; exact (h.slot_lt_iff huS).2 hu
    rw [foldl_addPair, List.sum_toFinset _ hPn]
    have : y.zeroForces s p k = 0 := by unfold Env.zeroForces; simp [hkl]
    rw [this, zero_add, hs.gs]
    congr 1
    refine List.map_congr_left fun e he => ?_
    obtain ⟨m1, m2, -⟩ := hmem' e he
    have i1 : slot ((exchange y.slab G).atoms p) e.1 = k ↔ e.1 = u := by
      constructor
      · intro hk
        have := slot_get (h.mem_local m1)
        rw [hk, ← huk, slot_get huS] at this
        exact (Option.some.inj this).symm
      · intro hk; rw [hk, huk]
    have i2 : (y.reverse = true ∨ slot ((exchange y.slab G).atoms p) e.2 < s.nloc p) ∧
        slot ((exchange y.slab G).atoms p) e.2 = k ↔ e.2 = u := by
      constructor
      · rintro ⟨-, hk⟩
        have := slot_get m2
        rw [hk, ← huk, slot_get huS] at this
        exact (Option.some.inj this).symm
      · intro hk; rw [hk, huk]; exact ⟨Or.inr hkl, rfl⟩
    simp only [i1, i2]
  rw [e0, ← entries_field ok h hδ hX i E ?_ ?_, hE, Finset.sum_image (by intro x _ z _ e; exact (Prod.mk.inj e).2),
    Finset.sum_filter]
  · refine Finset.sum_congr rfl fun e he => ?_
    obtain ⟨m1, m2, m3, m4, m5⟩ := hmem' e (List.mem_toFinset.1 he)
    have hne := h.ids_ne ok rfl (h.mem_local m1) m2 m3 m5
    by_cases c1 : e.1 = u
    · have c2 : ¬ e.2 = u := fun c => m3 (c1.trans c.symm)
      have c3 : e.1.data.1 = i := by rw [c1, hui]
      simp [c1, c2, hui]
    · have c3 : ¬ e.1.data.1 = i := fun c => c1 (huniq _ m1 c)
      by_cases c2 : e.2 = u
      · simp [c1, c2, c3]
      · simp [c1, c2]
  · intro t ht
    obtain ⟨h1, h2, h3⟩ := (hEm t).1 ht
    obtain ⟨m1, m2, m3, m4, m5⟩ := hmem' t.2 h2
    rw [h1]
    refine ⟨h.mem_local m1, m2, m3, m4, m5, h3.imp (fun e => by rw [e, hui]) (fun e => by rw [e, hui])⟩
  · intro j hj hm w hw hc
    obtain ⟨ku, hku⟩ := (h.copy huS).2
    rw [hui] at hku
    obtain ⟨kw, hkw⟩ := hw
    obtain ⟨b, hb, hbd, hbp⟩ := h.held.complete p (j, v j) (a j) ⟨rfl, rfl⟩ (u.pos + w)
      ⟨fun l => ku l + kw l, fun l => by
        rw [Pi.add_apply, hku l, hkw l, Pi.sub_apply]; push_cast; ring⟩ (by
        intro l
        have ho := h.owns hu l
        have hLl := ok.frame.pos l
        have h3 := abs_lt_of_sq_lt_sq ((ok.frame.bound w l).trans_lt hc) ok.cutoff_pos.le
        have h4 : |w l| < y.slab l := by
          unfold Env.slab
          rw [lt_div_iff₀ hLl]
          rwa [abs_mul, abs_of_pos hLl, mul_comm] at h3
        obtain ⟨h5, h6⟩ := abs_lt.1 h4
        rw [Pi.add_apply]
        constructor <;> linarith)
    have hbj : b.data.1 = j := by rw [hbd]
    have hbu : u ≠ b := by rintro rfl; exact hj (hbj.symm.trans hui)
    have hwi : Within y.cart y.cutoff u.pos b.pos := by
      unfold Within
      rw [ok.frame.lin, hbp, add_sub_cancel_left]; exact hc
    have hwi' : Within y.cart y.cutoff b.pos u.pos := by
      unfold Within at hwi ⊢
      rw [← neg_sub, normSq_neg]; exact hwi
    have hmk : ¬ y.masked u.data.1 b.data.1 := by rw [hui, hbj]; exact hm
    have hst : ∀ t, t ∈ E → StandsFor (i, v i) (j, v j) w t → t = (p, u, b) ∨ t = (p, b, u) := by
      rintro ⟨q, b1, b2⟩ ht hst
      obtain ⟨h1, h2, h3⟩ := (hEm _).1 ht
      obtain rfl : q = p := h1
      obtain ⟨m1, m2, -⟩ := hmem' _ h2
      rcases hst with ⟨d1, d2, d3⟩ | ⟨d1, d2, d3⟩
      · have e1 : b1 = u := h3.resolve_right (fun e => by
          apply hj
          have := congrArg Prod.fst d2
          rw [show b2 = u from e, hui] at this
          exact this.symm)
        left
        obtain rfl : b1 = u := e1
        have : b2 = b := h.uniq m2 hb (by rw [show b2.data = (j, v j) from d2, hbj]) (by
          rw [hbp, ← show b2.pos - b1.pos = w from d3]; abel)
        rw [this]
      · have e1 : b2 = u := h3.resolve_left (fun e => by
          apply hj
          have := congrArg Prod.fst d1
          rw [show b1 = u from e, hui] at this
          exact this.symm)
        right
        obtain rfl : b2 = u := e1
        have : b1 = b := h.uniq (h.mem_local m1) hb (by rw [show b1.data = (j, v j) from d1, hbj]) (by
          have d4 : b2.pos - b1.pos = - w := d3
          have d5 : w = b1.pos - b2.pos := by rw [← neg_sub, d4, neg_neg]
          rw [hbp, d5]; abel)
        rw [this]
    have st1 : StandsFor (i, v i) (j, v j) w (p, u, b) := Or.inl ⟨hu2, hbd, by
      show b.pos - u.pos = w
      rw [hbp]; abel⟩
    have st2 : StandsFor (i, v i) (j, v j) w (p, b, u) := Or.inr ⟨hbd, hu2, by
      show u.pos - b.pos = -w
      rw [hbp]; abel⟩
    by_cases hbl : b ∈ (exchangeAtoms y.slab G p).atoms
    · rcases hxor u hu b hbl hbu hwi hmk with ⟨x1, x2⟩ | ⟨x1, x2⟩
      · refine ⟨(p, u, b), ⟨(hEm _).2 ⟨rfl, x1, Or.inl rfl⟩, st1⟩, ?_⟩
        rintro t ⟨t1, t2⟩
        rcases hst t t1 t2 with rfl | rfl
        · rfl
        · exact absurd ((hEm _).1 t1).2.1 x2
      · refine ⟨(p, b, u), ⟨(hEm _).2 ⟨rfl, x1, Or.inr rfl⟩, st2⟩, ?_⟩
        rintro t ⟨t1, t2⟩
        rcases hst t t1 t2 with rfl | rfl
        · exact absurd ((hEm _).1 t1).2.1 x2
        · rfl
    · have hbg : b ∈ gh := by
        rw [hgh, List.mem_append] at hb
        exact hb.resolve_left hbl
      have x1 := hall hrev u hu b hbg hwi hmk
      refine ⟨(p, u, b), ⟨(hEm _).2 ⟨rfl, x1, Or.inl rfl⟩, st1⟩, ?_⟩
      rintro t ⟨t1, t2⟩
      rcases hst t t1 t2 with rfl | rfl
      · rfl
      · exact absurd (hmem' _ ((hEm _).1 t1).2.1).1 hbl

end Verif.DdRun
