/-
The loops of `CfbLinearEndMove::move`: Rosenbluth weights of the old chain, growth of the new one,
and the restoration of the old one.
-/
import Verif.Cfb.Steps

set_option autoImplicit false

namespace Verif.Cfb

open Verif.Boundary Verif.McCellList Verif.McCell Verif.McMoves MeasureTheory
open Verif.Cpp
open Verif.Cpp.Out
open scoped ENNReal

variable {w : World} {lengths : Vec} {bravais : Fin 3 → Vec} {cutoff : ℝ}

/-! ### The cell list -/

theorem cells_delete {T : Finset ℕ} {cl : CL} {q : Conf} {a : ℕ}
    (h : At (sub w T) lengths cutoff cl q) (ha : a ∈ w.atoms) (haT : a ∉ T)
    (hcap : w.atoms.card < w.cellCap) :
    ∃ cl', ofRes (cl.deleteAtom a) = .ok cl' ∧ At (sub w (insert a T)) lengths cutoff cl' q := by
  obtain ⟨cl', h1, h2, h3⟩ := step_rel (A := ⟨w.atoms \ T, q⟩) (op := .del a) h.rel
    (Finset.mem_sdiff.2 ⟨ha, haT⟩) (fun _ U hU _ => lt_of_le_of_lt (Finset.card_le_card
      (hU.trans ((Finset.erase_subset _ _).trans Finset.sdiff_subset))) hcap)
  have he : (w.atoms \ T).erase a = w.atoms \ insert a T := by
    ext b
    simp only [Finset.mem_erase, Finset.mem_sdiff, Finset.mem_insert]
    tauto
  refine ⟨cl', ?_, ⟨?_, by rw [h2, h.n]⟩⟩
  · simp only [McCellList.step] at h1
    rw [h1]
    rfl
  · simp only [Abs.step] at h3
    rw [he] at h3
    exact h3

theorem cells_add {T : Finset ℕ} {cl : CL} {q : Conf} {a : ℕ} {r : Vec}
    (h : At (sub w (insert a T)) lengths cutoff cl q) (ha : a ∈ w.atoms) (haT : a ∉ T)
    (hr : r ∈ cell w.gen) (hcap : w.atoms.card < w.cellCap) :
    ∃ cl', ofRes (cl.addAtom w.gen w.cellCap a r) = .ok cl' ∧
      At (sub w T) lengths cutoff cl' (Function.update q a r) := by
  have he : insert a (w.atoms \ insert a T) = w.atoms \ T := by
    ext b
    simp only [Finset.mem_sdiff, Finset.mem_insert]
    constructor
    · rintro (rfl | h)
      · exact ⟨ha, haT⟩
      · tauto
    · tauto
  obtain ⟨cl', h1, h2, h3⟩ := step_rel (A := ⟨w.atoms \ insert a T, q⟩) (op := .add a r) h.rel
    ⟨by simp, hr⟩ (fun _ U hU _ => lt_of_le_of_lt (Finset.card_le_card
      (hU.trans (by simp only [Abs.step]; rw [he]; exact Finset.sdiff_subset))) hcap)
  refine ⟨cl', ?_, ⟨?_, by rw [h2, h.n]⟩⟩
  · have h1' : cl.addAtom w.gen w.cellCap a r = .ok cl' := h1
    rw [h1']
    rfl
  · simp only [Abs.step] at h3
    rw [he] at h3
    exact h3

/-! ### Sites of the moves -/

theorem sites_notMem {c : Chain} {R : ℝ} (hc : c.OK w bravais R) {sign i j : ℤ} (hj : Site c j)
    (h : sign * (j - i) ≤ 0) : c.atom j ∉ beyond c sign i := by
  unfold beyond
  simp only [Finset.mem_image, Finset.mem_filter, Finset.mem_Ico, not_exists, not_and]
  intro k hk he
  have := hc.inj _ _ hk.1 hj he
  rw [this] at hk
  omega

theorem next_site {c : Chain} {sign i : ℤ} (hs : sign = 1 ∨ sign = -1) (hi : Site c i)
    (h : hasAngle c sign i = true) : Site c (i - 2 * sign) := by
  unfold hasAngle at h
  unfold Site at hi ⊢
  rcases hs with rfl | rfl <;> simp at h <;> omega

/-- The energy of an atom depends only on atoms that are not beyond it. -/
theorem restE_congr {c : Chain} {R : ℝ} (hc : c.OK w bravais R) {t : ℕ → ℕ} {sign i : ℤ}
    (hs : sign = 1 ∨ sign = -1) (hi : Site c i) (hi' : Site c (i - sign)) {p q : Conf}
    (h : ∀ b, b ∉ beyond c sign i → p b = q b) :
    restE w c t sign i p = restE w c t sign i q := by
  have h0 := h _ (sites_notMem hc (sign := sign) (i := i) hi (by simp))
  have h1 := h _ (sites_notMem hc (sign := sign) (i := i) hi' (by rcases hs with rfl | rfl <;> omega))
  unfold restE
  congr 1
  · congr 1
    · unfold pairWith
      refine Finset.sum_congr rfl fun b hb => ?_
      have hb' := h b (Finset.mem_sdiff.1 hb).2
      unfold pairE
      rw [h0, hb']
    · by_cases ha : hasAngle c sign i = true
      · have h2 := h _ (sites_notMem hc (sign := sign) (i := i) (next_site hs hi ha)
          (by rcases hs with rfl | rfl <;> omega))
        rw [if_pos ha, if_pos ha, h0, h1, h2]
      · rw [if_neg ha, if_neg ha]
  · rw [h0]

theorem φOf_congr {c : Chain} {R : ℝ} (hc : c.OK w bravais R) {t : ℕ → ℕ} {sign i : ℤ}
    (hs : sign = 1 ∨ sign = -1) (hi : Site c i) (hi' : Site c (i - sign)) {p q : Conf}
    (h : ∀ b, b ∉ beyond c sign i → p b = q b) :
    φOf w c t sign i p = φOf w c t sign i q := by
  unfold φOf
  rw [restE_congr hc hs hi hi' h]

theorem lenOf_congr {c : Chain} {R : ℝ} (hc : c.OK w bravais R) {sign i : ℤ}
    (hs : sign = 1 ∨ sign = -1) (hi : Site c i) (hi' : Site c (i - sign)) {p q : Conf}
    (h : ∀ b, b ∉ beyond c sign i → p b = q b) : lenOf w c sign i p = lenOf w c sign i q := by
  unfold lenOf
  rw [h _ (sites_notMem hc (sign := sign) (i := i) hi (by simp)),
    h _ (sites_notMem hc (sign := sign) (i := i) hi' (by rcases hs with rfl | rfl <;> omega))]

theorem trialPos_congr {c : Chain} {R : ℝ} (hc : c.OK w bravais R) {sign i : ℤ}
    (hi' : Site c (i - sign)) {p q : Conf}
    (h : ∀ b, b ∉ beyond c sign (i - sign) → p b = q b) (ℓ : ℝ) (u : Vec) :
    trialPos w bravais c sign i p ℓ u = trialPos w bravais c sign i q ℓ u := by
  unfold trialPos
  rw [h _ (sites_notMem hc (sign := sign) (i := i - sign) hi' (by simp))]

theorem update_agree {T : Finset ℕ} {a : ℕ} {p q : Conf} (h : ∀ b, b ∉ insert a T → p b = q b)
    (x : Vec) : ∀ b, b ∉ T → Function.update p a x b = Function.update q a x b := by
  intro b hb
  by_cases hba : b = a
  · rw [hba, Function.update_self, Function.update_self]
  · rw [Function.update_of_ne hba, Function.update_of_ne hba]
    exact h b (by simp [hba, hb])

/-! ### Removal of several atoms -/

/-- Rosenbluth weight of an atom in the configuration `p`. -/
noncomputable def delWt (w : World) (bravais : Fin 3 → Vec) (c : Chain) (t : ℕ → ℕ) (sign : ℤ)
    (p : Conf) (i : ℤ) (us : List Vec) : ℝ :=
  φOf w c t sign i p + (factors w bravais c t sign i p (lenOf w c sign i p) us).sum

/-- Rosenbluth weight of several atoms. -/
noncomputable def delW (w : World) (bravais : Fin 3 → Vec) (c : Chain) (t : ℕ → ℕ) (sign : ℤ)
    (p : Conf) (l : List ℤ) (dels : List (List Vec)) : ℝ :=
  ((l.zip dels).map fun x => delWt w bravais c t sign p x.1 x.2).prod

/-- Before atom `i` is removed: `p` is the configuration before the move. -/
structure DelInv (w : World) (lengths : Vec) (cutoff : ℝ) (c : Chain) (sign i : ℤ) (p : Conf)
    (s0 s : Sys) : Prop where
  cells : At (sub w (beyond c sign i)) lengths cutoff s.cells p
  rest : { s with pos := s0.pos, cells := s0.cells } = s0
  same : ∀ b, b ∉ beyond c sign i → s.pos b = p b
  cell : ∀ b ∈ w.atoms, s.pos b ∈ cell w.gen

theorem deleteLoop_ok (ok : w.OK lengths bravais cutoff) {c : Chain} {R : ℝ} (hc : c.OK w bravais R)
    {sign : ℤ} (hs : sign = 1 ∨ sign = -1) (hcap : w.atoms.card < w.cellCap) {p : Conf} {s0 : Sys}
    {n : ℕ} : ∀ {i : ℤ} {dels : List (List Vec)} {s : Sys} {acc : ℝ}, dels.length = n →
    (∀ j ∈ ids i (-sign) n, Site c j ∧ Site c (j - sign) ∧ 0 < lenOf w c sign j p ∧
      lenOf w c sign j p < R) →
    (∀ us ∈ dels, ∀ u ∈ us, normSq u = 1) → DelInv w lengths cutoff c sign i p s0 s →
    ∃ s', Out.loop (fun (st : Sys × ℝ) (x : ℤ × List Vec) => do
        let (s1, rosenbluth) ← deleteAtom w c sign x.1 x.2 st.1
        let cl ← ofRes (s1.cells.deleteAtom (c.atom x.1))
        Out.ok ({ s1 with cells := cl }, st.2 * rosenbluth)) ((ids i (-sign) n).zip dels) (s, acc) =
      Out.ok (s', acc * delW w bravais c s0.typ sign p (ids i (-sign) n) dels) ∧
      DelInv w lengths cutoff c sign (i - n * sign) p s0 s' := by
  induction n with
  | zero =>
    intro i dels s acc hd _ _ h
    refine ⟨s, ?_, by simpa using h⟩
    simp [ids, delW]
  | succ n ih =>
    intro i dels s acc hd hsites hu h
    obtain ⟨us, dels, rfl⟩ : ∃ us l, dels = us :: l := by
      cases dels with
      | nil => simp at hd
      | cons x l => exact ⟨x, l, rfl⟩
    obtain ⟨hi, hi', hl0, hl1⟩ := hsites i (by simp [ids])
    have htyp : s.typ = s0.typ := by rw [← h.rest]
    have ha : c.atom i ∉ beyond c sign i := sites_notMem hc hi (by simp)
    have hlen : lenOf w c sign i s.pos = lenOf w c sign i p := lenOf_congr hc hs hi hi' h.same
    obtain ⟨y, hy, e1⟩ := deleteAtom_ok ok hc hs hi hi' h.cells (h.cell _ (hc.mem _ hi))
      (h.cell _ (hc.mem _ hi')) (fun b hb _ => (h.same b (Finset.mem_sdiff.1 hb).2).symm)
      (by rw [hlen]; exact hl0) (by rw [hlen]; exact hl1) (hu us List.mem_cons_self)
    obtain ⟨cl, e2, e3⟩ := cells_delete h.cells (hc.mem _ hi) ha hcap
    rw [← beyond_step hs hi] at e3
    have hW : φOf w c s.typ sign i s.pos + (us.map fun u => φOf w c s.typ sign i
        (Function.update s.pos (c.atom i)
          (trialPos w bravais c sign i s.pos (lenOf w c sign i s.pos) u))).sum =
        delWt w bravais c s0.typ sign p i us := by
      unfold delWt factors
      rw [htyp, φOf_congr hc hs hi hi' h.same, hlen]
      congr 2
      refine List.map_congr_left fun u _ => ?_
      have hag : ∀ b, b ∉ beyond c sign (i - sign) → s.pos b = p b := fun b hb =>
        h.same b fun hb' => hb (by rw [beyond_step hs hi]; exact Finset.mem_insert_of_mem hb')
      rw [trialPos_congr hc hi' hag]
      exact φOf_congr hc hs hi hi' (update_agree (fun b hb => h.same b fun hb' =>
        hb (Finset.mem_insert_of_mem hb')) _)
    rw [hW] at e1
    obtain ⟨s', f1, f2⟩ := ih (i := i + -sign) (dels := dels)
      (s := { s.setPos (c.atom i) y with cells := cl }) (acc := acc * delWt w bravais c s0.typ sign p i us)
      (by simpa using hd) (fun j hj => hsites j (by simp [ids, hj]))
      (fun x hx => hu x (List.mem_cons_of_mem _ hx))
      ⟨e3, h.rest, fun b hb => by
          have hb' : b ∉ beyond c sign (i - sign) := hb
          rw [beyond_step hs hi, Finset.mem_insert, not_or] at hb'
          change Function.update s.pos (c.atom i) y b = p b
          rw [Function.update_of_ne hb'.1]
          exact h.same b hb'.2,
        fun b hb => by
          change Function.update s.pos (c.atom i) y b ∈ cell w.gen
          by_cases hba : b = c.atom i
          · rw [hba, Function.update_self]; exact hy
          · rw [Function.update_of_ne hba]; exact h.cell b hb⟩
    refine ⟨s', ?_, ?_⟩
    · simp only [ids, List.zip_cons_cons]
      rw [loop_cons]
      dsimp only
      rw [e1, ok_bind]
      dsimp only
      rw [e2, ok_bind, ok_bind, f1]
      simp only [delW, List.zip_cons_cons, List.map_cons, List.prod_cons, mul_assoc]
    · have : i - ((n + 1 : ℕ) : ℤ) * sign = i + -sign - n * sign := by push_cast; ring
      rw [this]
      exact f2

/-! ### Growth of several atoms -/

/-- The new configuration and the Rosenbluth weight. -/
noncomputable def growPure (w : World) (bravais : Fin 3 → Vec) (c : Chain) (t : ℕ → ℕ) (sign : ℤ) :
    List ℤ → List (ℝ × List Vec × ℝ) → Conf → Conf × ℝ
  | i :: l, g :: gs, p =>
    let fs := factors w bravais c t sign i p g.1 g.2.1
    let r := growPure w bravais c t sign l gs (Function.update p (c.atom i)
      (trialPos w bravais c sign i p g.1 (g.2.1.getD (pick (probs fs) g.2.2) 0)))
    (r.1, fs.sum * r.2)
  | _, _, p => (p, 1)

/-- Random numbers of the growth of an atom. -/
def Draw (R : ℝ) (k : ℕ) (g : ℝ × List Vec × ℝ) : Prop :=
  0 < g.1 ∧ g.1 < R ∧ g.2.1.length = k ∧ (∀ u ∈ g.2.1, normSq u = 1) ∧ 0 ≤ g.2.2 ∧ g.2.2 < 1

/-- While atoms are grown. -/
structure GrowInv (w : World) (lengths : Vec) (cutoff : ℝ) (c : Chain) (sign i : ℤ)
    (s0 s : Sys) : Prop where
  cells : At (sub w (beyond c sign i)) lengths cutoff s.cells s.pos
  rest : { s with pos := s0.pos, cells := s0.cells } = s0
  cell : ∀ b ∈ w.atoms, s.pos b ∈ cell w.gen

theorem addLoop_ok (ok : w.OK lengths bravais cutoff) {c : Chain} {R : ℝ} (hc : c.OK w bravais R)
    {sign : ℤ} (hs : sign = 1 ∨ sign = -1) (hcap : w.atoms.card < w.cellCap) {s0 : Sys} {k : ℕ}
    (hk : 0 < k) (ht : ∀ j, Site c j → s0.typ (c.atom j) = c.atomType j)
    {n : ℕ} : ∀ {i : ℤ} {grows : List (ℝ × List Vec × ℝ)} {s : Sys} {acc : ℝ}, grows.length = n →
    (∀ j ∈ ids i sign n, Site c j ∧ Site c (j - sign)) →
    (∀ g ∈ grows, Draw R k g) → GrowInv w lengths cutoff c sign (i - sign) s0 s →
    ∃ s', Out.loop (fun (st : Sys × ℝ) (x : ℤ × ℝ × List Vec × ℝ) => do
        let (s1, rosenbluth) ← addAtom w c sign x.1 x.2.1 x.2.2.1 x.2.2.2 st.1
        let cl ← ofRes (s1.cells.addAtom w.gen w.cellCap (c.atom x.1) (s1.pos (c.atom x.1)))
        Out.ok ({ s1 with cells := cl }, st.2 * rosenbluth)) ((ids i sign n).zip grows) (s, acc) =
      Out.ok (s', acc * (growPure w bravais c s0.typ sign (ids i sign n) grows s.pos).2) ∧
      s'.pos = (growPure w bravais c s0.typ sign (ids i sign n) grows s.pos).1 ∧
      GrowInv w lengths cutoff c sign (i - sign + n * sign) s0 s' := by
  induction n with
  | zero =>
    intro i grows s acc hd _ _ h
    refine ⟨s, ?_, ?_, by simpa using h⟩
    · simp [ids, growPure]
    · simp [ids, growPure]
  | succ n ih =>
    intro i grows s acc hd hsites hg h
    obtain ⟨g, grows, rfl⟩ : ∃ us l, grows = us :: l := by
      cases grows with
      | nil => simp at hd
      | cons x l => exact ⟨x, l, rfl⟩
    obtain ⟨hi, hi'⟩ := hsites i (by simp [ids])
    obtain ⟨ℓ, us, roll⟩ := g
    obtain ⟨d1, d2, d3, d4, d5, d6⟩ := hg _ List.mem_cons_self
    dsimp only at d1 d2 d3 d4 d5 d6
    have htyp : s.typ = s0.typ := by rw [← h.rest]
    have ha : c.atom i ∉ beyond c sign i := sites_notMem hc hi (by simp)
    have hcl := h.cells
    rw [beyond_step hs hi] at hcl
    obtain ⟨hj, e1⟩ := addAtom_ok ok hc hs hi hi' hcl (by rw [htyp]; exact ht i hi)
      (h.cell _ (hc.mem _ hi')) (fun _ _ => rfl) d1 d2 d4
      (by rintro rfl; simp at d3; omega) d5 d6
    obtain ⟨fs, hfs'⟩ : ∃ fs, fs = factors w bravais c s.typ sign i s.pos ℓ us := ⟨_, rfl⟩
    simp only [← hfs'] at hj e1
    have hfs : fs = factors w bravais c s0.typ sign i s.pos ℓ us := by rw [hfs', htyp]
    obtain ⟨x, hx⟩ : ∃ x, x = trialPos w bravais c sign i s.pos ℓ us[pick (probs fs) roll] := ⟨_, rfl⟩
    rw [← hx] at e1
    have hxc : x ∈ cell w.gen := by
      obtain ⟨t1, t2, -, -⟩ := trial_dvec ok hc (h.cell _ (hc.mem _ hi'))
        (d4 us[pick (probs fs) roll] (List.getElem_mem hj)) d1.le d2
      rw [t1] at t2
      rw [hx]
      exact t2
    obtain ⟨cl, e2, e3⟩ := cells_add (q := s.pos) (r := x) hcl (hc.mem _ hi) ha hxc hcap
    have hx' : x = trialPos w bravais c sign i s.pos ℓ (us.getD (pick (probs fs) roll) 0) := by
      rw [hx, List.getD_eq_getElem?_getD, List.getElem?_eq_getElem hj]
      rfl
    have hsi : i + sign - sign = i := by ring
    obtain ⟨s', f1, f2, f3⟩ := ih (i := i + sign) (grows := grows)
      (s := { s.setPos (c.atom i) x with cells := cl }) (acc := acc * fs.sum)
      (by simpa using hd) (fun j hj => hsites j (by simp [ids, hj]))
      (fun x hx => hg x (List.mem_cons_of_mem _ hx))
      ⟨by rw [hsi]; exact e3, h.rest, fun b hb => by
          change Function.update s.pos (c.atom i) x b ∈ cell w.gen
          by_cases hba : b = c.atom i
          · rw [hba, Function.update_self]; exact hxc
          · rw [Function.update_of_ne hba]; exact h.cell b hb⟩
    refine ⟨s', ?_, ?_, ?_⟩
    · simp only [ids, List.zip_cons_cons]
      rw [loop_cons]
      dsimp only
      rw [e1, ok_bind]
      dsimp only
      rw [Function.update_self, e2, ok_bind, ok_bind, f1]
      simp only [growPure]
      rw [← hfs, ← hx', mul_assoc]
    · rw [f2]
      simp only [growPure, ids]
      rw [← hfs, ← hx']
    · have : i - sign + ((n + 1 : ℕ) : ℤ) * sign = i + sign - sign + n * sign := by push_cast; ring
      rw [this]
      exact f3

/-- Only the grown atoms change. -/
theorem growPure_off (c : Chain) (t : ℕ → ℕ) (sign : ℤ) : ∀ (l : List ℤ)
    (gs : List (ℝ × List Vec × ℝ)) (p : Conf) (b : ℕ), b ∉ l.map c.atom →
    (growPure w bravais c t sign l gs p).1 b = p b := by
  intro l
  induction l with
  | nil => intro gs p b _; simp [growPure]
  | cons i l ih =>
    intro gs p b hb
    cases gs with
    | nil => simp [growPure]
    | cons g gs =>
      simp only [List.map_cons, List.mem_cons, not_or] at hb
      simp only [growPure]
      rw [ih _ _ _ hb.2, Function.update_of_ne hb.1]

/-- The positions of the atoms before they are grown do not matter. -/
theorem growPure_congr {c : Chain} {R : ℝ} (hc : c.OK w bravais R) {t : ℕ → ℕ} {sign : ℤ}
    (hs : sign = 1 ∨ sign = -1) {n : ℕ} : ∀ {i : ℤ} {gs : List (ℝ × List Vec × ℝ)} {p q : Conf},
    gs.length = n → (∀ j ∈ ids i sign n, Site c j ∧ Site c (j - sign)) →
    beyond c sign (i - sign + n * sign) = ∅ →
    (∀ b, b ∉ beyond c sign (i - sign) → p b = q b) →
    growPure w bravais c t sign (ids i sign n) gs p =
      growPure w bravais c t sign (ids i sign n) gs q := by
  induction n with
  | zero =>
    intro i gs p q _ _ hb h
    have : p = q := funext fun b => h b (by
      simp only [Nat.cast_zero, zero_mul, add_zero] at hb
      rw [hb]; simp)
    rw [this]
  | succ n ih =>
    intro i gs p q hg hsites hb h
    obtain ⟨g, gs, rfl⟩ : ∃ us l, gs = us :: l := by
      cases gs with
      | nil => simp at hg
      | cons x l => exact ⟨x, l, rfl⟩
    obtain ⟨hi, hi'⟩ := hsites i (by simp [ids])
    have hins : ∀ b, b ∉ insert (c.atom i) (beyond c sign i) → p b = q b := by
      rw [← beyond_step hs hi]; exact h
    have hf : factors w bravais c t sign i p g.1 g.2.1 = factors w bravais c t sign i q g.1 g.2.1 := by
      unfold factors
      refine List.map_congr_left fun u _ => ?_
      rw [trialPos_congr hc hi' h]
      exact φOf_congr hc hs hi hi' (update_agree hins _)
    have hsi : i + sign - sign = i := by ring
    simp only [ids, growPure]
    rw [hf, trialPos_congr hc hi' h, ih (i := i + sign) (by simpa using hg)
      (fun j hj => hsites j (by simp [ids, hj])) (by
        have : i + sign - sign + (n : ℤ) * sign = i - sign + ((n + 1 : ℕ) : ℤ) * sign := by
          push_cast; ring
        rw [this]; exact hb) (by rw [hsi]; exact update_agree hins _)]

/-! ### Restoration -/

theorem finish_loop (hcap : w.atoms.card < w.cellCap) {c : Chain} {p : Conf} : ∀ (l : List ℤ) {s : Sys},
    At w lengths cutoff s.cells s.pos → (∀ j ∈ l, c.atom j ∈ w.atoms ∧ p (c.atom j) ∈ cell w.gen) →
    ∃ s', Out.loop (fun (s : Sys) (x : ℤ × Vec) =>
        updateCell w (s.setPos (c.atom x.1) x.2) (c.atom x.1))
        (l.zip (l.map fun i => p (c.atom i))) s = Out.ok s' ∧
      At w lengths cutoff s'.cells s'.pos ∧ { s' with pos := s.pos, cells := s.cells } = s ∧
      ∀ b, s'.pos b = if b ∈ l.map c.atom then p b else s.pos b := by
  intro l
  induction l with
  | nil => intro s h _; exact ⟨s, by simp, h, rfl, by simp⟩
  | cons i l ih =>
    intro s h hl
    obtain ⟨h1, h2⟩ := hl i List.mem_cons_self
    obtain ⟨cl, e1, e2⟩ := updateCell_ok (s := s.setPos (c.atom i) (p (c.atom i))) (a := c.atom i) h h1
      (by simp only [Function.update_self]; exact h2) (fits_one hcap _ _)
    simp only [Function.update_self] at e2
    obtain ⟨s', f1, f2, f3, f4⟩ := ih (s := { s.setPos (c.atom i) (p (c.atom i)) with cells := cl }) e2
      fun j hj => hl j (List.mem_cons_of_mem _ hj)
    refine ⟨s', ?_, f2, ?_, ?_⟩
    · simp only [List.map_cons, List.zip_cons_cons]
      rw [loop_cons, e1, ok_bind]
      exact f1
    · have := congrArg (fun x : Sys => { x with pos := s.pos, cells := s.cells }) f3
      exact this
    · intro b
      rw [f4 b]
      simp only [List.map_cons, List.mem_cons]
      by_cases hb : b ∈ l.map c.atom
      · rw [if_pos hb, if_pos (Or.inr hb)]
      · rw [if_neg hb]
        by_cases hbi : b = c.atom i
        · rw [if_pos (Or.inl hbi), hbi, Function.update_self]
        · rw [if_neg (by tauto), Function.update_of_ne hbi]

/-! ### The move -/

theorem ids_append (start step : ℤ) (n : ℕ) :
    ids start step (n + 1) = ids start step n ++ [start + n * step] := by
  induction n generalizing start with
  | zero => simp [ids]
  | succ n ih =>
    rw [ids, ih, ids, List.cons_append]
    congr 3
    push_cast
    ring_nf

theorem ids_reverse (start step : ℤ) (n : ℕ) :
    (ids start step n).reverse = ids (start + n * step - step) (-step) n := by
  induction n with
  | zero => simp [ids]
  | succ n ih =>
    rw [ids_append, List.reverse_append, List.reverse_singleton, ih]
    simp only [ids, List.singleton_append]
    congr 1
    · push_cast; ring
    · congr 1
      push_cast
      ring

theorem mem_ids {start step : ℤ} {n : ℕ} {j : ℤ} :
    j ∈ ids start step n ↔ ∃ k < n, j = start + k * step := by
  induction n generalizing start with
  | zero => simp [ids]
  | succ n ih =>
    simp only [ids, List.mem_cons, ih]
    constructor
    · rintro (rfl | ⟨k, hk, rfl⟩)
      · exact ⟨0, by omega, by simp⟩
      · exact ⟨k + 1, by omega, by push_cast; ring⟩
    · rintro ⟨k, hk, rfl⟩
      cases k with
      | zero => left; simp
      | succ k => right; exact ⟨k, by omega, by push_cast; ring⟩

theorem signOf_cases (e : ℝ) : signOf e = 1 ∨ signOf e = -1 := by
  unfold signOf
  split <;> simp

/-- The atoms that are regrown, in the order of growth. -/
def regrown (c : Chain) (n : ℕ) (sign : ℤ) : List ℤ := ids (beginId c n sign) sign n

theorem regrown_last (c : Chain) (n : ℕ) {sign : ℤ} (hs : sign = 1 ∨ sign = -1) :
    beginId c n sign - sign + n * sign = endId c sign := by
  unfold beginId endId
  rcases hs with rfl | rfl
  · simp; omega
  · simp

theorem regrown_site {c : Chain} {n : ℕ} (hn : (n : ℤ) < c.nAtom) {sign : ℤ}
    (hs : sign = 1 ∨ sign = -1) {j : ℤ} (hj : j ∈ regrown c n sign) : Site c j ∧ Site c (j - sign) := by
  obtain ⟨k, hk, rfl⟩ := mem_ids.1 hj
  unfold Site beginId
  rcases hs with rfl | rfl <;> simp <;> omega

theorem beyond_last (c : Chain) {sign : ℤ} (hs : sign = 1 ∨ sign = -1) :
    beyond c sign (endId c sign) = ∅ := by
  unfold beyond endId
  rw [Finset.image_eq_empty, Finset.filter_eq_empty_iff]
  intro j hj
  rw [Finset.mem_Ico] at hj
  rcases hs with rfl | rfl <;> simp <;> omega

theorem regrown_reverse (c : Chain) (n : ℕ) {sign : ℤ} (hs : sign = 1 ∨ sign = -1) :
    (regrown c n sign).reverse = ids (endId c sign) (-sign) n := by
  unfold regrown
  rw [ids_reverse, ← regrown_last c n hs]
  congr 1
  ring

/-- What the move does. -/
theorem endMove_ok (ok : w.OK lengths bravais cutoff) {c : Chain} {R : ℝ} (hc : c.OK w bravais R)
    (hcap : w.atoms.card < w.cellCap) {n k : ℕ} (hn : (n : ℤ) < c.nAtom) (hk : 0 < k) {e : ℝ} {s : Sys}
    (h : At w lengths cutoff s.cells s.pos) (ht : ∀ j, Site c j → s.typ (c.atom j) = c.atomType j)
    (hlen : ∀ j ∈ regrown c n (signOf e), 0 < lenOf w c (signOf e) j s.pos ∧
      lenOf w c (signOf e) j s.pos < R)
    {dels : List (List Vec)} (hd : dels.length = n) (hdu : ∀ us ∈ dels, ∀ u ∈ us, normSq u = 1)
    {grows : List (ℝ × List Vec × ℝ)} (hg : grows.length = n) (hgd : ∀ g ∈ grows, Draw R k g) (v : ℝ)
    {q' : Conf} {Wf Wr : ℝ}
    (hq : (q', Wf) = growPure w bravais c s.typ (signOf e) (regrown c n (signOf e)) grows s.pos)
    (hW : Wr = delW w bravais c s.typ (signOf e) s.pos (regrown c n (signOf e)).reverse dels) :
    ∃ s', endMove w c n e dels grows v s = .ok (s', metropolis (Wf / Wr) v) ∧
      At w lengths cutoff s'.cells s'.pos ∧
      s'.pos = (if metropolis (Wf / Wr) v = true then q' else s.pos) ∧ s'.typ = s.typ ∧
      s'.nAttempt = s.nAttempt + 1 ∧
      s'.nAccept = s.nAccept + (if metropolis (Wf / Wr) v = true then 1 else 0) := by
  have hs := signOf_cases e
  obtain ⟨sign, hsign⟩ : ∃ sign, sign = signOf e := ⟨_, rfl⟩
  rw [← hsign] at hlen hq hW hs
  have hcell : ∀ b ∈ w.atoms, s.pos b ∈ cell w.gen := fun b hb => h.unit hb
  have hlast := regrown_last c n hs
  have hend : endId c sign - n * sign = beginId c n sign - sign := by rw [← hlast]; ring
  obtain ⟨s1, d1, d2⟩ := deleteLoop_ok ok hc hs hcap (p := s.pos) (s0 := s.attempt)
    (i := endId c sign) (s := s.attempt) (acc := 1) hd (fun j hj => by
      rw [← regrown_reverse c n hs, List.mem_reverse] at hj
      obtain ⟨a1, a2⟩ := regrown_site hn hs hj
      exact ⟨a1, a2, hlen j hj⟩) hdu
    ⟨by rw [beyond_last c hs, sub_empty]; exact h, rfl, fun _ _ => rfl, hcell⟩
  rw [hend] at d2
  rw [one_mul] at d1
  have d3 : delW w bravais c s.attempt.typ sign s.pos (ids (endId c sign) (-sign) n) dels = Wr := by
    rw [hW, regrown_reverse c n hs]
  rw [d3] at d1
  obtain ⟨s2, a1, a2, a3⟩ := addLoop_ok ok hc hs hcap (s0 := s.attempt) hk ht
    (i := beginId c n sign) (s := s1) (acc := 1) hg (fun j hj => regrown_site hn hs hj) hgd
    ⟨d2.cells.congr (fun b hb => (d2.same b (Finset.mem_sdiff.1 hb).2).symm), d2.rest, d2.cell⟩
  have a4 : growPure w bravais c s.attempt.typ sign (ids (beginId c n sign) sign n) grows s1.pos =
      (q', Wf) := by
    rw [hq]
    exact growPure_congr hc hs hg (fun j hj => regrown_site hn hs hj)
      (by rw [hlast]; exact beyond_last c hs) d2.same
  rw [a4, one_mul] at a1
  rw [a4] at a2
  dsimp only at a1 a2
  have hAt := a3.cells
  rw [hlast, beyond_last c hs, sub_empty] at hAt
  have r1 : s2.typ = s.typ := by
    have := congrArg Sys.typ a3.rest
    exact this
  have r2 : s2.nAttempt = s.nAttempt + 1 := by
    have := congrArg Sys.nAttempt a3.rest
    exact this
  have r3 : s2.nAccept = s.nAccept := by
    have := congrArg Sys.nAccept a3.rest
    exact this
  have hmove : endMove w c n e dels grows v s =
      finish w c ((regrown c n sign).zip ((regrown c n sign).map fun i => s.pos (c.atom i))) s2
        (metropolis (Wf / Wr) v) := by
    unfold endMove deleteLoop addLoop
    dsimp only
    rw [check_true hn, ok_bind, ← hsign, d1, ok_bind]
    dsimp only
    rw [a1, ok_bind]
    rfl
  rw [hmove]
  cases hm : metropolis (Wf / Wr) v with
  | true =>
    exact ⟨s2.accept, rfl, hAt, by rw [if_pos rfl]; exact a2, r1, r2, by
      rw [if_pos rfl]; exact congrArg (· + 1) r3⟩
  | false =>
    obtain ⟨s3, f1, f2, f3, f4⟩ := finish_loop hcap (p := s.pos) (regrown c n sign) hAt fun j hj =>
      ⟨hc.mem _ (regrown_site hn hs hj).1, hcell _ (hc.mem _ (regrown_site hn hs hj).1)⟩
    have hpos : s3.pos = s.pos := by
      funext b
      rw [f4 b]
      split
      · rfl
      · next hb =>
        have : q' = (growPure w bravais c s.typ sign (regrown c n sign) grows s.pos).1 := by rw [← hq]
        rw [a2, this, growPure_off c _ _ _ _ _ _ hb]
    refine ⟨s3, ?_, f2, by rw [hpos]; simp, ?_, ?_, ?_⟩
    · unfold finish
      rw [f1, ok_bind]
    · have := congrArg Sys.typ f3
      exact Eq.trans this r1
    · have := congrArg Sys.nAttempt f3
      exact Eq.trans this r2
    · have := congrArg Sys.nAccept f3
      exact Eq.trans this r3

end Verif.Cfb
