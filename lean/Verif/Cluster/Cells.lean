/-
C38 with the cell list and the boundary of the program: clusters are the
connected components of the graph in which two molecules are joined if some
periodic images of two of their atoms are closer than the cutoff.
-/
import Verif.Cluster.Props
import Verif.McCellList.Props

set_option autoImplicit false

namespace Verif.Cluster

open Verif.Cpp
open Verif.Cpp.Out
open Verif.Boundary Verif.McCellList

/-- Molecules and the positions of their atoms (after `shift`). -/
structure Mols where
  cap : ℕ
  mols : List ℕ
  atoms : ℕ → List ℕ
  typed : ℕ → Bool
  molOf : ℕ → ℕ
  pos : ℕ → Vec

/-- Atoms added to the cell list, ClusterIdentifier.cpp:146-152, in order. -/
def Mols.listed (x : Mols) : List ℕ := x.mols.flatMap fun m => (x.atoms m).filter x.typed

/-- The calls of `addAtom`. -/
def Mols.ops (x : Mols) : List Op := x.listed.map fun a => .add a (x.pos a)

/-- `cellList_.getNeighbors(position)` for a cell list built by these calls. -/
noncomputable def Mols.near (x : Mols) (gen : Vec → Vec) (cellCap : ℕ) (s0 : CL) (a : ℕ) : List ℕ :=
  match run gen cellCap s0 x.ops with
  | .ok s => (s.getNeighbors gen (x.pos a)).getD []
  | _ => []

/-- The test of the program. -/
noncomputable def Mols.world (x : Mols) (gen : Vec → Vec) (cellCap : ℕ) (s0 : CL)
    (dsq : Vec → Vec → ℝ) (cutoff : ℝ) : World where
  cap := x.cap
  mols := x.mols
  atoms := x.atoms
  typed := x.typed
  molOf := x.molOf
  near := x.near gen cellCap s0
  close a b := by classical exact decide (dsq (x.pos a) (x.pos b) < cutoff * cutoff)

/-- Molecules are distinct, and their atoms are distinct, know their molecule and
lie in the primary cell; no cell is filled to capacity. -/
structure Mols.OK (x : Mols) (gen : Vec → Vec) (cellCap : ℕ) (n : IVec) : Prop where
  nodup : x.mols.Nodup
  lt : ∀ m ∈ x.mols, m < x.cap
  atomsNodup : ∀ m ∈ x.mols, (x.atoms m).Nodup
  owner : ∀ m ∈ x.mols, ∀ a ∈ x.atoms m, x.molOf a = m
  unit : ∀ m ∈ x.mols, ∀ a ∈ x.atoms m, InUnit (gen (x.pos a))
  roomy : ∀ (c : IVec) (T : Finset ℕ), (∀ a ∈ T, a ∈ x.listed ∧ InBox n (gen (x.pos a)) c) →
    T.card < cellCap

/-- Some periodic image of an atom of `m'` is closer than the cutoff to an atom
of `m`. -/
def Joined (x : Mols) (bravais : Fin 3 → Vec) (cutoff : ℝ) (m m' : ℕ) : Prop :=
  m ≠ m' ∧ m ∈ x.mols ∧ m' ∈ x.mols ∧ ∃ a ∈ x.atoms m, ∃ b ∈ x.atoms m',
    x.typed a = true ∧ x.typed b = true ∧
      ∃ k : IVec, normSq (x.pos a - x.pos b + latComb bravais k) < cutoff ^ 2

section
variable {x : Mols} {gen : Vec → Vec} {cellCap : ℕ} {s0 : CL} {dsq : Vec → Vec → ℝ} {cutoff : ℝ}
  {lengths : Vec} {bravais : Fin 3 → Vec} {n : IVec}

theorem mem_listed (a : ℕ) : a ∈ x.listed ↔ ∃ m ∈ x.mols, a ∈ x.atoms m ∧ x.typed a = true := by
  simp [Mols.listed, List.mem_flatMap, List.mem_filter]

theorem listed_nodup (h : x.OK gen cellCap n) : x.listed.Nodup := by
  unfold Mols.listed
  rw [List.nodup_flatMap]
  refine ⟨fun m hm => (h.atomsNodup m hm).filter _, ?_⟩
  refine h.nodup.pairwise_of_forall_ne fun m hm m' hm' hne => ?_
  intro a ha ha'
  rw [List.mem_filter] at ha ha'
  exact hne ((h.owner m hm a ha.1).symm.trans (h.owner m' hm' a ha'.1))

theorem adds_run (l : List ℕ) (pos : ℕ → Vec) (A : Abs) (hA : ∀ a ∈ A.S, A.pos a = pos a) :
    ((l.map fun a => Op.add a (pos a)).foldl Abs.step A).S = A.S ∪ l.toFinset ∧
    ∀ a ∈ ((l.map fun a => Op.add a (pos a)).foldl Abs.step A).S,
      ((l.map fun a => Op.add a (pos a)).foldl Abs.step A).pos a = pos a := by
  induction l generalizing A with
  | nil => simpa using hA
  | cons a l ih =>
    have hA' : ∀ b ∈ (A.step (.add a (pos a))).S, (A.step (.add a (pos a))).pos b = pos b := by
      intro b hb
      simp only [Abs.step] at hb ⊢
      by_cases hba : b = a
      · subst hba; simp
      · rw [Function.update_of_ne hba]
        exact hA b (Finset.mem_of_mem_insert_of_ne hb hba)
    obtain ⟨h1, h2⟩ := ih (A.step (.add a (pos a))) hA'
    simp only [List.map_cons, List.foldl_cons]
    refine ⟨?_, h2⟩
    rw [h1]
    ext b
    simp only [Abs.step, Finset.mem_union, Finset.mem_insert, List.toFinset_cons]
    tauto

theorem adds_allowed (l : List ℕ) (pos : ℕ → Vec) (A : Abs) (hA : ∀ a ∈ A.S, A.pos a = pos a)
    (hnd : l.Nodup) (hd : ∀ a ∈ l, a ∉ A.S) (hu : ∀ a ∈ l, InUnit (gen (pos a)))
    (hr : ∀ (c : IVec) (T : Finset ℕ), (∀ a ∈ T, (a ∈ A.S ∨ a ∈ l) ∧ InBox n (gen (pos a)) c) →
      T.card < cellCap) :
    AllowedHist gen cellCap n A (l.map fun a => Op.add a (pos a)) := by
  induction l generalizing A with
  | nil => trivial
  | cons a l ih =>
    rw [List.nodup_cons] at hnd
    have hA' : ∀ b ∈ (A.step (.add a (pos a))).S, (A.step (.add a (pos a))).pos b = pos b := by
      intro b hb
      simp only [Abs.step] at hb ⊢
      by_cases hba : b = a
      · subst hba; simp
      · rw [Function.update_of_ne hba]
        exact hA b (Finset.mem_of_mem_insert_of_ne hb hba)
    refine ⟨⟨hd a (List.mem_cons_self ..), hu a (List.mem_cons_self ..)⟩, ?_, ?_⟩
    · intro c T hT hb
      refine hr c T fun b hbT => ?_
      have hbS := hT hbT
      have := hb b hbT
      rw [hA' b hbS] at this
      refine ⟨?_, this⟩
      simp only [Abs.step, Finset.mem_insert] at hbS
      rcases hbS with rfl | h1
      · exact Or.inr (List.mem_cons_self ..)
      · exact Or.inl h1
    · refine ih _ hA' hnd.2 ?_ (fun b hb => hu b (List.mem_cons_of_mem _ hb)) ?_
      · intro b hb hbS
        simp only [Abs.step, Finset.mem_insert] at hbS
        rcases hbS with rfl | h1
        · exact hnd.1 hb
        · exact hd b (List.mem_cons_of_mem _ hb) h1
      · intro c T hT
        refine hr c T fun b hb => ?_
        obtain ⟨h1, h2⟩ := hT b hb
        refine ⟨?_, h2⟩
        simp only [Abs.step, Finset.mem_insert] at h1
        rcases h1 with (rfl | h1) | h1
        · exact Or.inr (List.mem_cons_self ..)
        · exact Or.inl h1
        · exact Or.inr (List.mem_cons_of_mem _ h1)

theorem near_spec (geo : Geo gen lengths bravais) (hs : setup lengths cutoff = some s0)
    (h : x.OK gen cellCap s0.n) {m a : ℕ} (hm : m ∈ x.mols) (ha : a ∈ x.atoms m) :
    (∀ b ∈ x.near gen cellCap s0 a, b ∈ x.listed) ∧
    ∀ b ∈ x.listed, (∃ k : IVec, normSq (x.pos a - x.pos b + latComb bravais k) < cutoff ^ 2) →
      b ∈ x.near gen cellCap s0 a := by
  have hal : AllowedHist gen cellCap s0.n ⟨∅, fun _ _ => 0⟩ x.ops := by
    refine adds_allowed x.listed x.pos _ (by simp) (listed_nodup h) (by simp) ?_ ?_
    · intro b hb
      obtain ⟨m', hm', hb', -⟩ := (mem_listed b).mp hb
      exact h.unit m' hm' b hb'
    · intro c T hT
      refine h.roomy c T fun b hb => ?_
      obtain ⟨h1 | h1, h2⟩ := hT b hb
      · simp at h1
      · exact ⟨h1, h2⟩
  have hrun := adds_run x.listed x.pos ⟨∅, fun _ _ => 0⟩ (by simp)
  have hS : (Abs.run x.ops).S = x.listed.toFinset := by
    have := hrun.1
    simpa [Abs.run, Mols.ops] using this
  have hpos : ∀ b ∈ (Abs.run x.ops).S, (Abs.run x.ops).pos b = x.pos b := hrun.2
  have hu := h.unit m hm a ha
  obtain ⟨s, l, h1, h2, h3⟩ := neighbors_complete geo cellCap cutoff s0 hs x.ops hal (x.pos a) hu
  obtain ⟨s', l', h1', h2', -, h4, -⟩ := C03_neighbors_nodup gen cellCap lengths cutoff s0 hs x.ops
    hal (x.pos a) hu
  rw [h1] at h1'
  obtain rfl : s = s' := by simpa using h1'
  rw [h2] at h2'
  obtain rfl : l = l' := by simpa using h2'
  have hnear : x.near gen cellCap s0 a = l := by
    unfold Mols.near
    rw [h1]
    simp only [h2, Option.getD_some]
  rw [hnear]
  constructor
  · intro b hb
    have := h4 b hb
    rw [hS, List.mem_toFinset] at this
    exact this
  · intro b hb hk
    have hbS : b ∈ (Abs.run x.ops).S := by rw [hS, List.mem_toFinset]; exact hb
    refine h3 b hbS ?_
    rw [hpos b hbS]
    exact hk

theorem normSq_neg_image (r1 r2 : Vec) (k : IVec) :
    normSq (r2 - r1 + latComb bravais (-k)) = normSq (r1 - r2 + latComb bravais k) := by
  have : r2 - r1 + latComb bravais (-k) = -(r1 - r2 + latComb bravais k) := by
    funext i
    simp only [latComb, Pi.add_apply, Pi.sub_apply, Pi.neg_apply, Pi.smul_apply, smul_eq_mul]
    push_cast
    ring
  rw [this]
  simp only [normSq, Pi.neg_apply, neg_sq]

theorem close_iff (dist : Dist bravais dsq) (ex : ExactBelow gen bravais dsq cutoff)
    (h : x.OK gen cellCap n) {m m' a b : ℕ} (hm : m ∈ x.mols) (hm' : m' ∈ x.mols)
    (ha : a ∈ x.atoms m) (hb : b ∈ x.atoms m') :
    (x.world gen cellCap s0 dsq cutoff).close a b = true ↔
      ∃ k : IVec, normSq (x.pos a - x.pos b + latComb bravais k) < cutoff ^ 2 := by
  simp only [Mols.world, decide_eq_true_eq]
  rw [← pow_two]
  constructor
  · intro hc
    obtain ⟨k, hk⟩ := dist.image (x.pos a) (x.pos b)
    exact ⟨k, by rw [← hk]; exact hc⟩
  · intro hk
    exact ex _ _ (h.unit m hm a ha) (h.unit m' hm' b hb) hk

theorem world_good (geo : Geo gen lengths bravais) (dist : Dist bravais dsq)
    (ex : ExactBelow gen bravais dsq cutoff) (hs : setup lengths cutoff = some s0)
    (h : x.OK gen cellCap s0.n) : Good (x.world gen cellCap s0 dsq cutoff) where
  nodup := h.nodup
  lt := h.lt
  owner := h.owner
  listed m hm a ha _ b hb := by
    have hl := (near_spec geo hs h hm ha).1 b hb
    obtain ⟨m', hm', hb', ht⟩ := (mem_listed b).mp hl
    have ho := h.owner m' hm' b hb'
    exact ⟨by rw [show (x.world gen cellCap s0 dsq cutoff).molOf b = x.molOf b from rfl, ho]; exact hm',
      by rw [show (x.world gen cellCap s0 dsq cutoff).molOf b = x.molOf b from rfl, ho]; exact hb', ht⟩
  complete m hm m' hm' a ha b hb _ tb hc :=
    (near_spec geo hs h hm ha).2 b ((mem_listed b).mpr ⟨m', hm', hb, tb⟩)
      ((close_iff dist ex h hm hm' ha hb).mp hc)
  symm m hm m' hm' a ha b hb hc := by
    rw [close_iff dist ex h hm' hm hb ha]
    obtain ⟨k, hk⟩ := (close_iff dist ex h hm hm' ha hb).mp hc
    exact ⟨-k, by rw [normSq_neg_image]; exact hk⟩

theorem adj_iff (dist : Dist bravais dsq) (ex : ExactBelow gen bravais dsq cutoff)
    (h : x.OK gen cellCap n) (m m' : ℕ) :
    Adj (x.world gen cellCap s0 dsq cutoff) m m' ↔ Joined x bravais cutoff m m' := by
  unfold Adj Joined
  refine and_congr_right fun _ => and_congr_right fun hm => and_congr_right fun hm' => ?_
  refine exists_congr fun a => and_congr_right fun ha => exists_congr fun b =>
    and_congr_right fun hb => and_congr_right fun _ => and_congr_right fun _ => ?_
  exact close_iff dist ex h hm hm' ha hb

/-- Clusters of any boundary that satisfies the geometric conditions. -/
theorem components (geo : Geo gen lengths bravais) (dist : Dist bravais dsq)
    (ex : ExactBelow gen bravais dsq cutoff) (hs : setup lengths cutoff = some s0)
    (h : x.OK gen cellCap s0.n) {N : ℕ} (hN : x.mols.length ≤ N) :
    ∃ r, identify (x.world gen cellCap s0 dsq cutoff) N = some (ok r) ∧
      (∀ m ∈ x.mols, ∃ k < r.clusters.length, (r.links m).cid = some k) ∧
      ∀ m ∈ x.mols, ∀ m' ∈ x.mols, (r.links m).cid = (r.links m').cid ↔
        Relation.ReflTransGen (Joined x bravais cutoff) m m' := by
  obtain ⟨r, e, -, h1, h2⟩ := C38_components (world_good geo dist ex hs h) hN
  refine ⟨r, e, h1, fun m hm m' hm' => ?_⟩
  rw [h2 m hm m' hm']
  unfold Conn
  rw [show Adj (x.world gen cellCap s0 dsq cutoff) = Joined x bravais cutoff from
    funext fun u => funext fun v => propext (adj_iff dist ex h u v)]

end

/-- **C38 (orthorhombic, tetragonal and cubic boundaries).** -/
theorem C38_ortho {b : Ortho} (hb : b.Reach) {x : Mols} {cellCap : ℕ} {cutoff : ℝ} {s0 : CL}
    (hs : setup b.lengths cutoff = some s0) (h : x.OK b.toGen cellCap s0.n) {N : ℕ}
    (hN : x.mols.length ≤ N) :
    ∃ r, identify (x.world b.toGen cellCap s0 b.distanceSq cutoff) N = some (ok r) ∧
      (∀ m ∈ x.mols, ∃ k < r.clusters.length, (r.links m).cid = some k) ∧
      ∀ m ∈ x.mols, ∀ m' ∈ x.mols, (r.links m).cid = (r.links m').cid ↔
        Relation.ReflTransGen (Joined x b.bravais cutoff) m m' :=
  components (geo_ortho hb) (dist_ortho hb) (exact_ortho hb cutoff) hs h hN

/-- **C38 (monoclinic boundary).**  The cutoff must not exceed half of the
smallest length, as for the potentials. -/
theorem C38_mono {b : Mono} (hb : b.Reach) {x : Mols} {cellCap : ℕ} {cutoff : ℝ} {s0 : CL}
    (hs : setup b.lengths cutoff = some s0) (hc : cutoff ≤ b.minLength / 2)
    (h : x.OK b.toGen cellCap s0.n) {N : ℕ} (hN : x.mols.length ≤ N) :
    ∃ r, identify (x.world b.toGen cellCap s0 b.distanceSq cutoff) N = some (ok r) ∧
      (∀ m ∈ x.mols, ∃ k < r.clusters.length, (r.links m).cid = some k) ∧
      ∀ m ∈ x.mols, ∀ m' ∈ x.mols, (r.links m).cid = (r.links m').cid ↔
        Relation.ReflTransGen (Joined x b.bravais cutoff) m m' :=
  components (geo_mono hb) (dist_mono hb)
    (exact_mono hb (le_of_lt ((setup_isSome b.lengths cutoff).1 ⟨s0, hs⟩)) hc) hs h hN

/-- The hypotheses can be met: two molecules at opposite faces of the unit
cube, any number of cells. -/
example (n : IVec) : Mols.OK ⟨2, [1, 0], fun m => [m], fun _ => true, fun a => a,
    fun a => if a = 0 then ![1/20, 1/2, 1/2] else ![19/20, 1/2, 1/2]⟩ Ortho.default.toGen 61 n where
  nodup := by decide
  lt := by decide
  atomsNodup _ _ := by simp
  owner m _ a ha := by simpa using ha
  unit m _ a _ i := by
    simp only [Ortho.toGen, Ortho.default]
    split <;> fin_cases i <;> norm_num
  roomy c T hT := by
    have hsub : T ⊆ {0, 1} := fun a ha => by
      have := (hT a ha).1
      simp [Mols.listed] at this
      simp; tauto
    exact lt_of_le_of_lt (Finset.card_le_card hsub) (by simp)

end Verif.Cluster
