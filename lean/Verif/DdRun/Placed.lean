import Verif.DdRun.Sum

/-! # What the processors hold after an exchange -/

set_option autoImplicit false

namespace Verif.DdRun

open Verif.Boundary Verif.DdExchange Verif.DdCellList

variable {N : Fin 3 → ℕ} {ι : Type}

/-- Atoms before an exchange: atom `i` is stored once, at the scaled position `a i` with velocity
`v i`, at most a domain width minus a slab width outside of the domain of the processor. -/
structure Placed (slab : Vec) (a v : ι → Vec) (G : Proc N → Local (Dat ι)) : Prop where
  slabOK : SlabOK N slab
  reach : WithinReach slab G
  faces : OffUpperFaces G
  distinct : Distinct fun p => (G p).atoms
  data : ∀ p, ∀ u ∈ (G p).atoms, u.data.2 = v u.data.1 ∧ u.pos = a u.data.1
  all : ∀ i, ∃ p, ∃ u ∈ (G p).atoms, u.data.1 = i

namespace Placed

variable {slab : Vec} {a v : ι → Vec} {G : Proc N → Local (Dat ι)} (h : Placed slab a v G)
include h

theorem held : Held slab {t : Dat ι × Vec | t.1.2 = v t.1.1 ∧ t.2 = a t.1.1} (exchange slab G).atoms := by
  have := held_exchange h.slabOK G h.reach h.faces h.distinct
  convert this using 1
  ext ⟨⟨i, w⟩, x⟩
  simp only [Set.mem_ofPred_eq]
  constructor
  · rintro ⟨rfl, rfl⟩
    obtain ⟨p, u, hu, rfl⟩ := h.all i
    exact ⟨p, u, hu, Prod.ext rfl (h.data p u hu).1, (h.data p u hu).2⟩
  · rintro ⟨p, u, hu, e, rfl⟩
    obtain ⟨h1, h2⟩ := h.data p u hu
    rw [e] at h1 h2
    exact ⟨h1, h2⟩

theorem copy {p : Proc N} {u : Atom (Dat ι)} (hu : u ∈ (exchange slab G).atoms p) :
    u.data = (u.data.1, v u.data.1) ∧ SameImage (a u.data.1) u.pos := by
  obtain ⟨x, ⟨h1, h2⟩, h3⟩ := h.held.sound p u hu
  exact ⟨Prod.ext rfl h1, h2 ▸ h3⟩

theorem uniq {p : Proc N} {u w : Atom (Dat ι)} (hu : u ∈ (exchange slab G).atoms p) (hw : w ∈ (exchange slab G).atoms p)
    (hd : u.data.1 = w.data.1) (hx : u.pos = w.pos) : u = w := by
  refine List.inj_on_of_nodup_map (h.held.once p) hu hw ?_
  rw [Prod.mk.injEq]
  refine ⟨?_, hx⟩
  rw [(h.copy hu).1, (h.copy hw).1, hd]

theorem nodup (p : Proc N) : ((exchange slab G).atoms p).Nodup := List.Nodup.of_map _ (h.held.once p)

theorem split (p : Proc N) : ∃ ghosts, (exchange slab G).atoms p = (exchangeAtoms slab G p).atoms ++ ghosts :=
  (C17_exchange slab h.slabOK G h.reach h.distinct p).2.2.2

theorem mem_local {p : Proc N} {u : Atom (Dat ι)} (hu : u ∈ (exchangeAtoms slab G p).atoms) :
    u ∈ (exchange slab G).atoms p := by
  obtain ⟨gh, e⟩ := h.split p
  rw [e]; exact List.mem_append_left _ hu

theorem owns {p : Proc N} {u : Atom (Dat ι)} (hu : u ∈ (exchangeAtoms slab G p).atoms) : Owns p u.pos :=
  C16_owner_partial slab G (h.reach.withinOne h.slabOK) h.faces p u hu

theorem exists_local (i : ι) : ∃ p, ∃ u ∈ (exchangeAtoms slab G p).atoms, u.data.1 = i := by
  obtain ⟨p, w, hw, rfl⟩ := h.all i
  obtain ⟨⟨q, u⟩, ⟨hu, e⟩, -⟩ := (C16_stored_once slab G h.distinct).2 p w hw
  exact ⟨q, u, hu, by rw [e]⟩

/-- A copy in the domain of its processor is the local atom. -/
theorem local_of_owns {p : Proc N} {u : Atom (Dat ι)} (hu : u ∈ (exchange slab G).atoms p) (ho : Owns p u.pos) :
    u ∈ (exchangeAtoms slab G p).atoms := by
  obtain ⟨q, w, hw, e⟩ := h.exists_local u.data.1
  have h1 := (h.copy hu).2
  have h2 := (h.copy (h.mem_local hw)).2
  rw [e] at h2
  obtain ⟨rfl, e2⟩ := owner_unique ho (h.owns hw) (sameImage_trans (sameImage_symm h1) h2)
  rw [h.uniq hu (h.mem_local hw) e.symm e2]
  exact hw

theorem local_iff {p : Proc N} {u : Atom (Dat ι)} (hu : u ∈ (exchange slab G).atoms p) :
    u ∈ (exchangeAtoms slab G p).atoms ↔ Owns p u.pos := ⟨h.owns, h.local_of_owns hu⟩

theorem local_unique {p q : Proc N} {u w : Atom (Dat ι)} (hu : u ∈ (exchangeAtoms slab G p).atoms)
    (hw : w ∈ (exchangeAtoms slab G q).atoms) (e : u.data.1 = w.data.1) : p = q ∧ u = w := by
  have h1 := (h.copy (h.mem_local hu)).2
  have h2 := (h.copy (h.mem_local hw)).2
  rw [← e] at h2
  obtain ⟨rfl, e2⟩ := owner_unique (h.owns hu) (h.owns hw) (sameImage_trans (sameImage_symm h1) h2)
  exact ⟨rfl, h.uniq (h.mem_local hu) (h.mem_local hw) e e2⟩

theorem slot_lt_iff {p : Proc N} {u : Atom (Dat ι)} (hu : u ∈ (exchange slab G).atoms p) :
    slot ((exchange slab G).atoms p) u < (exchangeAtoms slab G p).atoms.length ↔ u ∈ (exchangeAtoms slab G p).atoms := by
  obtain ⟨gh, e⟩ := h.split p
  have hg := slot_get hu
  constructor
  · intro hl
    rw [e, List.getElem?_append_left (by rw [← e]; exact hl), ← e] at hg
    exact List.mem_of_getElem? hg
  · intro hm
    obtain ⟨k, hk, rfl⟩ := List.getElem_of_mem hm
    rw [slot_of_get (h.nodup p) (k := k) (by rw [e, List.getElem?_append_left hk, List.getElem?_eq_getElem hk])]
    exact hk

/-- Two copies of an atom on one processor are not within the cutoff. -/
theorem ids_ne {y : Env ι} (ok : y.OK) (hs : slab = y.slab) {p : Proc N} {u w : Atom (Dat ι)}
    (hu : u ∈ (exchange slab G).atoms p) (hw : w ∈ (exchange slab G).atoms p) (hne : u ≠ w)
    (hc : normSq (y.cart (w.pos - u.pos)) < y.cutoff ^ 2) : u.data.1 ≠ w.data.1 := by
  intro e
  apply hne
  refine h.uniq hu hw e ?_
  have h1 := (h.copy hu).2
  have h2 := (h.copy hw).2
  rw [← e] at h2
  obtain ⟨k, hk⟩ := sameImage_trans (sameImage_symm h1) h2
  funext l
  have hL := ok.frame.pos l
  have h3 := (ok.frame.bound (w.pos - u.pos) l).trans_lt hc
  rw [Pi.sub_apply, hk l, add_sub_cancel_left] at h3
  have h4 := abs_lt_of_sq_lt_sq h3 ok.cutoff_pos.le
  rw [abs_mul, abs_of_pos hL] at h4
  have h5 : y.slab l ≤ 1 / (N l : ℝ) := hs ▸ (h.slabOK l).2
  have hN : (1 : ℝ) ≤ N l := by exact_mod_cast N_pos p l
  have h6 : y.cutoff / y.L l ≤ 1 := h5.trans (by rw [div_le_one (by linarith)]; exact hN)
  rw [div_le_one hL] at h6
  have h7 : |(k l : ℝ)| < 1 := by
    by_contra hcon
    push Not at hcon
    nlinarith
  have h8 : k l = 0 := by
    have : |k l| < 1 := by exact_mod_cast h7
    exact Int.abs_lt_one_iff.1 this
  rw [hk l, h8]; simp

end Placed

end Verif.DdRun
