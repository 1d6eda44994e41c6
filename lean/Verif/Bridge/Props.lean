/-
C85: regrowth of interior segments satisfies detailed balance.
-/
import Verif.Bridge.Model
import Mathlib.Tactic.Linarith
import Mathlib.Tactic.Ring
import Mathlib.Tactic.FieldSimp
import Mathlib.Tactic.Positivity
import Mathlib.Data.List.Perm.Basic

set_option autoImplicit false

namespace Verif.Bridge

open Verif.Cpp
open Verif.Cpp.Out

/-! ### What the move is to do -/

/-- A regrown atom: its position, the other trial positions and its place among them. -/
abbrev Grown (P : Type) := P × List P × ℕ

/-- A regrown segment in the order of growth. -/
structure Path (P : Type) where
  ends : List (Grown P)
  last : Grown P

variable {P : Type}

/-- Energy of the atoms but the last, with their bonds to the atoms before. -/
noncomputable def energyEnds (w : World P) : List P → List (Grown P) → ℝ
  | _, [] => 0
  | before, (x, _, _) :: rest => w.energy before x + w.prevBond before x + energyEnds w (x :: before) rest

/-- Positions in the order latest first. -/
def latest (l : List (Grown P)) : List P := (l.map Prod.fst).reverse

/-- Energy of a segment: atoms in their surroundings and bonds, among them the bond with the atom after
the segment. -/
noncomputable def energyPath (w : World P) (o : Path P) : ℝ :=
  energyEnds w [] o.ends
    + (w.energy (latest o.ends) o.last.1 + w.prevBond (latest o.ends) o.last.1 + w.nextBond o.last.1)

/-- Density of the other trial positions of each atom but the last; `cond` is the density of a trial
position given the length of the bond. -/
noncomputable def trialEnds (cond : List P → P → P → ℝ) : List P → List (Grown P) → ℝ
  | _, [] => 1
  | before, (x, ts, _) :: rest => (ts.map (cond before x)).prod * trialEnds cond (x :: before) rest

/-- Density of all other trial positions of a segment. -/
noncomputable def trialPath (cond mid : List P → P → P → ℝ) (o : Path P) : ℝ :=
  trialEnds cond [] o.ends * (o.last.2.1.map (mid (latest o.ends) o.last.1)).prod

/-- Density of the positions of atoms but the last among their trials: lengths of bonds follow the
Boltzmann distribution with constants `c`, directions are uniform. -/
noncomputable def genEnds (w : World P) (c : ℕ → ℝ) : List P → List (Grown P) → ℝ
  | _, [] => 1
  | before, (x, _, _) :: rest =>
    c before.length * Real.exp (-w.beta * w.prevBond before x) * genEnds w c (x :: before) rest

/-- Density of the positions of a segment among their trials; the direction of the last bond, which the
rejection method draws, has the density `bias/Z` with `Z` the integral of the bias over directions. -/
noncomputable def genPath (w : World P) (c : ℕ → ℝ) (Z : List P → ℝ) (o : Path P) : ℝ :=
  genEnds w c [] o.ends *
    (c o.ends.length * Real.exp (-w.beta * w.prevBond (latest o.ends) o.last.1)
      * (w.bias (latest o.ends) o.last.1 / Z (latest o.ends)))

/-- The list that `deleteSequence` visits. -/
def Path.visit (o : Path P) : List (P × List P) :=
  (o.last.1, o.last.2.1) :: (o.ends.map fun a => (a.1, a.2.1)).reverse

/-- Density of the transition from segment `o` to segment `n` with all trial positions: Boltzmann factor
of the old segment, trials around it, trials and choices of the new one, and acceptance. -/
noncomputable def flow (w : World P) (c : ℕ → ℝ) (Z : List P → ℝ) (cond mid : List P → P → P → ℝ) (o n : Path P) : ℝ :=
  Real.exp (-w.beta * energyPath w o) * trialPath cond mid o
    * (genPath w c Z n * trialPath cond mid n * (w.addSequence n.ends n.last).2)
    * accept (w.addSequence n.ends n.last).1 (w.deleteSequence o.visit)

/-- The place of each position is among its trials. -/
def Path.Valid (o : Path P) : Prop := (∀ a ∈ o.ends, a.2.2 ≤ a.2.1.length) ∧ o.last.2.2 ≤ o.last.2.1.length

/-! ### Sums over trials -/

theorem boltz_pos (w : World P) (e : ℝ) : 0 < w.boltz e := Real.exp_pos _

theorem foldl_sum (f : P → ℝ) (l : List P) : ∀ r, l.foldl (fun r t => r + f t) r = r + (l.map f).sum := by
  induction l with
  | nil => intro r; simp
  | cons a l ih => intro r; rw [List.foldl_cons, ih, List.map_cons, List.sum_cons]; ring

theorem sum_insertIdx (f : P → ℝ) (l : List P) (k : ℕ) (x : P) (h : k ≤ l.length) :
    ((l.insertIdx k x).map f).sum = f x + (l.map f).sum := by
  have := ((List.perm_insertIdx x l h).map f).sum_eq
  rw [this, List.map_cons, List.sum_cons]

theorem deleteEnd_eq (w : World P) (before : List P) (x : P) (ts : List P) (k : ℕ) (h : k ≤ ts.length) :
    w.deleteEnd before x ts = w.sumEnd before (ts.insertIdx k x) := by
  unfold World.deleteEnd World.sumEnd
  rw [foldl_sum (fun t => w.boltz (w.energy before t)), foldl_sum (fun t => w.boltz (w.energy before t)),
    sum_insertIdx _ _ _ _ h, zero_add]

theorem deleteMiddle_eq (w : World P) (before : List P) (x : P) (ts : List P) (k : ℕ) (h : k ≤ ts.length) :
    w.deleteMiddle before x ts = (w.addMiddle before x (ts.insertIdx k x)).1 := by
  unfold World.deleteMiddle World.addMiddle World.sumMiddle
  rw [foldl_sum (fun t => w.boltz (w.energy before t + w.nextBond t)),
    foldl_sum (fun t => w.boltz (w.energy before t + w.nextBond t)), sum_insertIdx _ _ _ _ h, zero_add]
  ring

theorem sum_pos (f : P → ℝ) (hf : ∀ x, 0 < f x) (x : P) (l : List P) (k : ℕ) (h : k ≤ l.length) :
    0 < ((l.insertIdx k x).map f).sum := by
  rw [sum_insertIdx f l k x h]
  have : 0 ≤ (l.map f).sum := List.sum_nonneg (by
    intro y hy
    obtain ⟨z, _, rfl⟩ := List.mem_map.1 hy
    exact (hf z).le)
  linarith [hf x]

theorem sumEnd_pos (w : World P) (before : List P) (x : P) (ts : List P) (k : ℕ) (h : k ≤ ts.length) :
    0 < w.sumEnd before (ts.insertIdx k x) := by
  unfold World.sumEnd
  rw [foldl_sum (fun t => w.boltz (w.energy before t)), zero_add]
  exact sum_pos _ (fun _ => boltz_pos w _) x ts k h

theorem sumMiddle_pos (w : World P) (before : List P) (x : P) (ts : List P) (k : ℕ) (h : k ≤ ts.length) :
    0 < w.sumMiddle before (ts.insertIdx k x) := by
  unfold World.sumMiddle
  rw [foldl_sum (fun t => w.boltz (w.energy before t + w.nextBond t)), zero_add]
  exact sum_pos _ (fun _ => boltz_pos w _) x ts k h

/-! ### Products over atoms -/

/-- Product of the Rosenbluth factors of atoms but the last. -/
noncomputable def rosenEnds (w : World P) : List P → List (Grown P) → ℝ
  | _, [] => 1
  | before, (x, ts, k) :: rest => w.sumEnd before (ts.insertIdx k x) * rosenEnds w (x :: before) rest

/-- Product of their Boltzmann factors. -/
noncomputable def boltzEnds (w : World P) : List P → List (Grown P) → ℝ
  | _, [] => 1
  | before, (x, _, _) :: rest => w.boltz (w.energy before x) * boltzEnds w (x :: before) rest

theorem rosenEnds_pos (w : World P) (l : List (Grown P)) : ∀ (before : List P),
    (∀ a ∈ l, a.2.2 ≤ a.2.1.length) → 0 < rosenEnds w before l := by
  induction l with
  | nil => intro _ _; exact one_pos
  | cons a l ih =>
    intro before h
    obtain ⟨x, ts, k⟩ := a
    exact mul_pos (sumEnd_pos w before x ts k (h _ List.mem_cons_self))
      (ih _ fun b hb => h b (List.mem_cons_of_mem _ hb))

theorem addEnds_eq (w : World P) (l : List (Grown P)) : ∀ (before : List P) (r : ℝ × ℝ),
    (∀ a ∈ l, a.2.2 ≤ a.2.1.length) →
    w.addEnds before l r
      = ((r.1 * rosenEnds w before l, r.2 * (boltzEnds w before l / rosenEnds w before l)),
          latest l ++ before) := by
  induction l with
  | nil => intro before r _; simp [World.addEnds, rosenEnds, boltzEnds, latest]
  | cons a l ih =>
    intro before r h
    obtain ⟨x, ts, k⟩ := a
    have h' : ∀ a ∈ l, a.2.2 ≤ a.2.1.length := fun b hb => h b (List.mem_cons_of_mem _ hb)
    have h1 := (sumEnd_pos w before x ts k (h _ List.mem_cons_self)).ne'
    have h2 := (rosenEnds_pos w l (x :: before) h').ne'
    simp only [World.addEnds, World.addEnd]
    rw [ih _ _ h']
    simp only [rosenEnds, boltzEnds, latest, List.map_cons, List.reverse_cons, List.append_assoc,
      List.cons_append, List.nil_append]
    refine Prod.ext (Prod.ext ?_ ?_) rfl
    · ring
    · field_simp

theorem ends_eq (w : World P) (l : List (P × List P)) : ∀ r : ℝ,
    World.deleteSequence.ends w l r = r * World.deleteSequence.ends w l 1 := by
  induction l with
  | nil => intro r; simp [World.deleteSequence.ends]
  | cons a l ih =>
    intro r
    obtain ⟨x, ts⟩ := a
    simp only [World.deleteSequence.ends]
    rw [ih (r * _), ih (1 * _)]
    ring

theorem deleteEnds_eq (w : World P) (l : List (Grown P)) : ∀ (B : List (P × List P)),
    (∀ a ∈ l, a.2.2 ≤ a.2.1.length) →
    World.deleteSequence.ends w ((l.map fun a => (a.1, a.2.1)).reverse ++ B) 1
      = rosenEnds w (B.map Prod.fst) l * World.deleteSequence.ends w B 1 := by
  induction l with
  | nil => intro B _; simp [rosenEnds]
  | cons a l ih =>
    intro B h
    obtain ⟨x, ts, k⟩ := a
    have h' : ∀ a ∈ l, a.2.2 ≤ a.2.1.length := fun b hb => h b (List.mem_cons_of_mem _ hb)
    rw [List.map_cons, List.reverse_cons, List.append_assoc, List.singleton_append, ih _ h']
    simp only [World.deleteSequence.ends, rosenEnds, List.map_cons]
    rw [ends_eq, deleteEnd_eq w _ x ts k (h _ List.mem_cons_self)]
    ring

/-- Rosenbluth factor of a segment. -/
noncomputable def rosenPath (w : World P) (o : Path P) : ℝ :=
  rosenEnds w [] o.ends
    * (w.sumMiddle (latest o.ends) (o.last.2.1.insertIdx o.last.2.2 o.last.1) * w.norm (latest o.ends)
      / w.bias (latest o.ends) o.last.1)

theorem addSequence_eq (w : World P) (o : Path P) (h : o.Valid) :
    w.addSequence o.ends o.last
      = (rosenPath w o, boltzEnds w [] o.ends / rosenEnds w [] o.ends *
          (w.boltz (w.energy (latest o.ends) o.last.1 + w.nextBond o.last.1)
            / w.sumMiddle (latest o.ends) (o.last.2.1.insertIdx o.last.2.2 o.last.1))) := by
  unfold World.addSequence
  rw [addEnds_eq w o.ends [] (1, 1) h.1]
  simp only [World.addMiddle, rosenPath, List.append_nil, one_mul]

/-- **C85 (Rosenbluth factors).**  `deleteSequence` gives a segment the same factor as `addSequence` gives
it when it is grown with the same trial positions. -/
theorem C85_rosenbluth (w : World P) (o : Path P) (h : o.Valid) :
    w.deleteSequence o.visit = (w.addSequence o.ends o.last).1 := by
  rw [addSequence_eq w o h]
  unfold Path.visit World.deleteSequence
  have e : ((o.ends.map fun a => (a.1, a.2.1)).reverse).map Prod.fst = latest o.ends := by
    rw [List.map_reverse, List.map_map]; rfl
  simp only [e]
  rw [ends_eq]
  have := deleteEnds_eq w o.ends [] h.1
  rw [List.append_nil] at this
  rw [this, deleteMiddle_eq w _ _ _ _ h.2]
  simp only [World.addMiddle, rosenPath, World.deleteSequence.ends, List.map_nil]
  ring

theorem rosenPath_pos (w : World P) (o : Path P) (h : o.Valid) (hb : ∀ l x, 0 < w.bias l x)
    (hn : ∀ l, 0 < w.norm l) : 0 < rosenPath w o :=
  mul_pos (rosenEnds_pos w _ _ h.1)
    (div_pos (mul_pos (sumMiddle_pos w _ _ _ _ h.2) (hn _)) (hb _ _))

/-! ### Detailed balance -/

/-- Part of `genEnds` that depends on the stages only. -/
noncomputable def constants (c : ℕ → ℝ) : ℕ → ℕ → ℝ
  | _, 0 => 1
  | b, n + 1 => c b * constants c (b + 1) n

theorem genEnds_eq (w : World P) (c : ℕ → ℝ) (l : List (Grown P)) : ∀ before : List P,
    genEnds w c before l * boltzEnds w before l
      = constants c before.length l.length * Real.exp (-w.beta * energyEnds w before l) := by
  induction l with
  | nil => intro before; simp [genEnds, boltzEnds, constants, energyEnds]
  | cons a l ih =>
    intro before
    obtain ⟨x, ts, k⟩ := a
    have h := ih (x :: before)
    simp only [genEnds, boltzEnds, energyEnds, List.length_cons, constants] at h ⊢
    have e : Real.exp (-w.beta * (w.energy before x + w.prevBond before x + energyEnds w (x :: before) l))
        = w.boltz (w.energy before x) * Real.exp (-w.beta * w.prevBond before x)
          * Real.exp (-w.beta * energyEnds w (x :: before) l) := by
      rw [World.boltz, ← Real.exp_add, ← Real.exp_add]
      congr 1
      ring
    rw [e]
    linear_combination (c before.length * Real.exp (-w.beta * w.prevBond before x)
      * w.boltz (w.energy before x)) * h

/-- The density of growing a segment, with its choices, is its Boltzmann factor divided by its Rosenbluth
factor. -/
theorem grow_eq (w : World P) (c : ℕ → ℝ) (Z : List P → ℝ) (hZ : ∀ l, 0 < Z l) (o : Path P) (h : o.Valid) (hb : ∀ l x, 0 < w.bias l x)
    (hn : ∀ l, 0 < w.norm l) :
    genPath w c Z o * (w.addSequence o.ends o.last).2
      = constants c 0 o.ends.length * c o.ends.length * Real.exp (-w.beta * energyPath w o)
        / rosenPath w o * (w.norm (latest o.ends) / Z (latest o.ends)) := by
  rw [addSequence_eq w o h]
  have h1 := (rosenEnds_pos w o.ends [] h.1).ne'
  have h2 := (sumMiddle_pos w (latest o.ends) o.last.1 o.last.2.1 o.last.2.2 h.2).ne'
  have h3 := (hb (latest o.ends) o.last.1).ne'
  have h4 := (hn (latest o.ends)).ne'
  have hg := genEnds_eq w c o.ends []
  rw [List.length_nil] at hg
  have e : Real.exp (-w.beta * energyPath w o)
      = Real.exp (-w.beta * energyEnds w [] o.ends)
        * (w.boltz (w.energy (latest o.ends) o.last.1 + w.nextBond o.last.1)
          * Real.exp (-w.beta * w.prevBond (latest o.ends) o.last.1)) := by
    rw [World.boltz, ← Real.exp_add, ← Real.exp_add, energyPath]
    congr 1
    ring
  rw [e]
  unfold genPath rosenPath
  simp only
  generalize Real.exp (-w.beta * energyEnds w [] o.ends) = A at hg ⊢
  generalize Real.exp (-w.beta * w.prevBond (latest o.ends) o.last.1) = B
  generalize w.boltz (w.energy (latest o.ends) o.last.1 + w.nextBond o.last.1) = C
  have h5 := (hZ (latest o.ends)).ne'
  field_simp
  linear_combination (B * C * c o.ends.length) * hg

/-- **C85 (ratio of transitions).**  For each set of trial positions, the transitions between two segments of
the same length, each divided by the ratio of the tabulated to the true normalization of the bias of the
segment that is grown, are equal in the Boltzmann distribution. -/
theorem C85_ratio (w : World P) (c : ℕ → ℝ) (Z : List P → ℝ) (cond mid : List P → P → P → ℝ) (o n : Path P)
    (ho : o.Valid) (hn : n.Valid) (hlen : o.ends.length = n.ends.length)
    (hb : ∀ l x, 0 < w.bias l x) (hnorm : ∀ l, 0 < w.norm l) (hZ : ∀ l, 0 < Z l) :
    flow w c Z cond mid o n * (w.norm (latest o.ends) / Z (latest o.ends))
      = flow w c Z cond mid n o * (w.norm (latest n.ends) / Z (latest n.ends)) := by
  have key : ∀ a b : ℝ, 0 < a → 0 < b → 1 / a * min 1 (a / b) = min (1 / a) (1 / b) := by
    intro a b ha hb
    rw [mul_min_of_nonneg _ _ (by positivity), mul_one]
    congr 1
    field_simp
  have hRo := rosenPath_pos w o ho hb hnorm
  have hRn := rosenPath_pos w n hn hb hnorm
  have go := grow_eq w c Z hZ o ho hb hnorm
  have gn := grow_eq w c Z hZ n hn hb hnorm
  unfold flow accept
  rw [C85_rosenbluth w o ho, C85_rosenbluth w n hn]
  have ro : (w.addSequence o.ends o.last).1 = rosenPath w o := by rw [addSequence_eq w o ho]
  have rn : (w.addSequence n.ends n.last).1 = rosenPath w n := by rw [addSequence_eq w n hn]
  rw [ro, rn]
  have k1 := key _ _ hRn hRo
  have k2 := key _ _ hRo hRn
  have k3 := k1.trans ((min_comm _ _).trans k2.symm)
  rw [show genPath w c Z n * trialPath cond mid n * (w.addSequence n.ends n.last).2
      = trialPath cond mid n * (genPath w c Z n * (w.addSequence n.ends n.last).2) by ring,
    show genPath w c Z o * trialPath cond mid o * (w.addSequence o.ends o.last).2
      = trialPath cond mid o * (genPath w c Z o * (w.addSequence o.ends o.last).2) by ring, go, gn, hlen]
  linear_combination (Real.exp (-w.beta * energyPath w o) * trialPath cond mid o * trialPath cond mid n
    * constants c 0 n.ends.length * c n.ends.length * Real.exp (-w.beta * energyPath w n)
    * (w.norm (latest o.ends) / Z (latest o.ends)) * (w.norm (latest n.ends) / Z (latest n.ends))) * k3

/-- **C85 (detailed balance).**  If the tabulated normalizations of the bias are the true ones up to a
factor, the transitions between two segments of the same length balance in the Boltzmann distribution,
for each set of trial positions. -/
theorem C85_balance (w : World P) (c : ℕ → ℝ) (Z : List P → ℝ) (κ : ℝ) (cond mid : List P → P → P → ℝ)
    (o n : Path P) (ho : o.Valid) (hn : n.Valid) (hlen : o.ends.length = n.ends.length)
    (hb : ∀ l x, 0 < w.bias l x) (hnorm : ∀ l, 0 < w.norm l) (hZ : ∀ l, 0 < Z l)
    (hκ : ∀ l, w.norm l = κ * Z l) :
    flow w c Z cond mid o n = flow w c Z cond mid n o := by
  have h := C85_ratio w c Z cond mid o n ho hn hlen hb hnorm hZ
  have e : ∀ l, w.norm l / Z l = κ := fun l => by rw [hκ l, mul_div_assoc, div_self (hZ l).ne', mul_one]
  have hκ0 : κ ≠ 0 := by
    rw [← e []]
    exact (div_pos (hnorm _) (hZ _)).ne'
  rw [e, e] at h
  exact mul_right_cancel₀ hκ0 h

/-- Transitions that can occur have a positive density. -/
theorem flow_pos (w : World P) (c : ℕ → ℝ) (hc : ∀ i, 0 < c i) (Z : List P → ℝ)
    (cond mid : List P → P → P → ℝ) (o n : Path P) (ho : o.Valid) (hn : n.Valid)
    (hb : ∀ l x, 0 < w.bias l x) (hnorm : ∀ l, 0 < w.norm l) (hZ : ∀ l, 0 < Z l)
    (hto : 0 < trialPath cond mid o) (htn : 0 < trialPath cond mid n) : 0 < flow w c Z cond mid o n := by
  have hcon : ∀ m b, 0 < constants c b m := by
    intro m
    induction m with
    | zero => intro b; exact one_pos
    | succ m ih => intro b; exact mul_pos (hc b) (ih _)
  have gn := grow_eq w c Z hZ n hn hb hnorm
  have hRo := rosenPath_pos w o ho hb hnorm
  have hRn := rosenPath_pos w n hn hb hnorm
  have hg : 0 < genPath w c Z n * (w.addSequence n.ends n.last).2 := by
    rw [gn]
    exact mul_pos (div_pos (mul_pos (mul_pos (hcon _ _) (hc _)) (Real.exp_pos _)) hRn)
      (div_pos (hnorm _) (hZ _))
  unfold flow accept
  rw [C85_rosenbluth w o ho]
  have ro : (w.addSequence o.ends o.last).1 = rosenPath w o := by rw [addSequence_eq w o ho]
  have rn : (w.addSequence n.ends n.last).1 = rosenPath w n := by rw [addSequence_eq w n hn]
  rw [ro, rn, show genPath w c Z n * trialPath cond mid n * (w.addSequence n.ends n.last).2
      = trialPath cond mid n * (genPath w c Z n * (w.addSequence n.ends n.last).2) by ring]
  exact mul_pos (mul_pos (mul_pos (Real.exp_pos _) hto) (mul_pos htn hg))
    (lt_min one_pos (div_pos hRn hRo))

/-- **C85 (normalization, violated).**  Otherwise they do not balance: every error of the tabulated
normalization, which is the result of Simpson's rule, is an error of the distribution. -/
theorem C85_norm_violated (w : World P) (c : ℕ → ℝ) (hc : ∀ i, 0 < c i) (Z : List P → ℝ)
    (cond mid : List P → P → P → ℝ) (o n : Path P) (ho : o.Valid) (hn : n.Valid)
    (hlen : o.ends.length = n.ends.length)
    (hb : ∀ l x, 0 < w.bias l x) (hnorm : ∀ l, 0 < w.norm l) (hZ : ∀ l, 0 < Z l)
    (hto : 0 < trialPath cond mid o) (htn : 0 < trialPath cond mid n)
    (hne : w.norm (latest o.ends) / Z (latest o.ends) ≠ w.norm (latest n.ends) / Z (latest n.ends)) :
    flow w c Z cond mid o n ≠ flow w c Z cond mid n o := by
  intro h
  have hr := C85_ratio w c Z cond mid o n ho hn hlen hb hnorm hZ
  rw [← h] at hr
  exact hne (mul_left_cancel₀ (flow_pos w c hc Z cond mid o n ho hn hb hnorm hZ hto htn).ne' hr)

end Verif.Bridge
