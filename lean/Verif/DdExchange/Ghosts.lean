import Verif.DdExchange.Atoms
import Mathlib.Data.Multiset.Bind
import Mathlib.Data.List.Range
import Mathlib.Tactic.FinCases

/-! Lemmas about the exchange of ghosts. -/

set_option autoImplicit false

namespace Verif.DdExchange

open Verif.Boundary Verif.DdChem

variable {N : Fin 3 → ℕ} {D : Type}

/-- All indices in the send arrays refer to stored atoms. -/
def Valid (G : GState N D) : Prop := ∀ q d, ∀ k ∈ G.send q d, k < (G.atoms q).length

theorem filterMap_get_length {α : Type} (L : List α) (l : List ℕ) (h : ∀ k ∈ l, k < L.length) :
    (l.filterMap fun k => L[k]?).length = l.length := by
  induction l with
  | nil => rfl
  | cons k l ih =>
    have hk : L[k]? = some (L[k]'(h k (by simp))) := List.getElem?_eq_getElem _
    rw [List.filterMap_cons_some hk, List.length_cons, List.length_cons,
      ih (fun k' hk' => h k' (by simp [hk']))]

theorem filterMap_get_get {α : Type} (L : List α) (l : List ℕ) (h : ∀ k ∈ l, k < L.length) (r : ℕ) :
    (l.filterMap fun k => L[k]?)[r]? = (l[r]?).bind fun k => L[k]? := by
  induction l generalizing r with
  | nil => simp
  | cons k l ih =>
    have hk : L[k]? = some (L[k]'(h k (by simp))) := List.getElem?_eq_getElem _
    rw [List.filterMap_cons_some hk]
    cases r with
    | zero => simp
    | succ r => simpa using ih (fun k' hk' => h k' (by simp [hk'])) r

theorem filterMap_append_prefix {α : Type} (L M : List α) (l : List ℕ) (h : ∀ k ∈ l, k < L.length) :
    (l.filterMap fun k => (L ++ M)[k]?) = l.filterMap fun k => L[k]? := by
  apply List.filterMap_congr
  intro k hk
  exact List.getElem?_append_left (h k hk)

theorem newGhosts_length {G : GState N D} (hv : Valid G) (d : Dir) (q : Proc N) :
    (newGhosts d G q).length = (G.send (source d q) d).length := by
  rw [newGhosts, List.length_map, filterMap_get_length _ _ (hv _ _)]

theorem newGhosts_get {G : GState N D} (hv : Valid G) (d : Dir) (q : Proc N) (r : ℕ) :
    (newGhosts d G q)[r]? = (G.send (source d q) d)[r]?.bind fun k =>
      (G.atoms (source d q))[k]?.map (receive N d (shift d q)) := by
  rw [newGhosts, List.getElem?_map, filterMap_get_get _ _ (hv _ _)]
  cases (G.send (source d q) d)[r]? <;> rfl

theorem ghostDir_valid {G : GState N D} (hv : Valid G) (d : Dir) : Valid (ghostDir d G) := by
  intro q d' k hk
  simp only [ghostDir, List.length_append] at hk ⊢
  split at hk
  · rcases List.mem_append.1 hk with h | h
    · have := hv q d' k h; omega
    · have := (List.mem_filter.1 h).1
      rw [List.mem_range'_1] at this
      omega
  · have := hv q d' k hk; omega

/-! ### Index structure -/

/-- `G` contains the transfers `ds`, performed in this order starting with `start q` atoms on
processor `q`. -/
def Linked (G : GState N D) : List Dir → (Proc N → ℕ) → Prop
  | [], start => ∀ q, start q = (G.atoms q).length
  | d :: ds, start =>
      (∀ p, ∀ k ∈ G.send p d, k < start p) ∧
      (∀ q, G.recv q d = List.range' (start q) (G.send (source d q) d).length) ∧
      (∀ q, start q ≤ (G.atoms q).length) ∧
      (∀ q r, r < (G.send (source d q) d).length → (G.atoms q)[start q + r]? =
        (G.send (source d q) d)[r]?.bind fun k =>
          (G.atoms (source d q))[k]?.map (receive N d (shift d q))) ∧
      Linked G ds (fun q => start q + (G.send (source d q) d).length)

theorem foldl_atoms (ds : List Dir) (G : GState N D) (q : Proc N) :
    ∃ t, (ds.foldl (fun G d => ghostDir d G) G).atoms q = G.atoms q ++ t := by
  induction ds generalizing G with
  | nil => exact ⟨[], by simp⟩
  | cons d ds ih =>
    obtain ⟨t, ht⟩ := ih (ghostDir d G)
    exact ⟨newGhosts d G q ++ t, by rw [List.foldl_cons, ht]; simp [ghostDir]⟩

theorem foldl_send (ds : List Dir) (G : GState N D) (q : Proc N) (d' : Dir)
    (h : ∀ d ∈ ds, ¬ d.1 < d'.1) :
    (ds.foldl (fun G d => ghostDir d G) G).send q d' = G.send q d' := by
  induction ds generalizing G with
  | nil => rfl
  | cons d ds ih =>
    rw [List.foldl_cons, ih _ (fun x hx => h x (by simp [hx]))]
    simp only [ghostDir, if_neg (h d (by simp))]

theorem foldl_recv (ds : List Dir) (G : GState N D) (q : Proc N) (d' : Dir) (h : d' ∉ ds) :
    (ds.foldl (fun G d => ghostDir d G) G).recv q d' = G.recv q d' := by
  induction ds generalizing G with
  | nil => rfl
  | cons d ds ih =>
    rw [List.foldl_cons, ih _ (fun hx => h (by simp [hx]))]
    have : d' ≠ d := fun e => h (by simp [e])
    simp only [ghostDir, Function.update_of_ne this]

theorem linked_foldl (ds : List Dir)
    (hds : ds.Pairwise fun d d' => d ≠ d' ∧ ¬ d'.1 < d.1) (G : GState N D) (hv : Valid G) :
    Linked (ds.foldl (fun G d => ghostDir d G) G) ds (fun q => (G.atoms q).length) := by
  induction ds generalizing G with
  | nil => intro q; rfl
  | cons d ds ih =>
    rw [List.pairwise_cons] at hds
    obtain ⟨hd, hds⟩ := hds
    have hsend : ∀ p, ((d :: ds).foldl (fun G d => ghostDir d G) G).send p d = G.send p d := by
      intro p
      apply foldl_send
      intro x hx
      rcases List.mem_cons.1 hx with rfl | hx
      · exact lt_irrefl _
      · exact (hd x hx).2
    have hrecv : ∀ q, ((d :: ds).foldl (fun G d => ghostDir d G) G).recv q d =
        List.range' (G.atoms q).length (newGhosts d G q).length := by
      intro q
      rw [List.foldl_cons, foldl_recv _ _ _ _ (fun h => (hd d h).1 rfl)]
      simp [ghostDir]
    have hpre := foldl_atoms (d :: ds) G
    have hpre2 := foldl_atoms ds (ghostDir d G)
    refine ⟨?_, ?_, ?_, ?_, ?_⟩
    · intro p k hk
      rw [hsend] at hk
      exact hv p d k hk
    · intro q
      rw [hrecv, hsend, newGhosts_length hv]
    · intro q
      obtain ⟨t, ht⟩ := hpre q
      rw [ht]; simp
    · intro q r hr
      rw [hsend] at hr ⊢
      obtain ⟨t, ht⟩ := hpre2 q
      obtain ⟨t', ht'⟩ := hpre (source d q)
      have h1 : ((d :: ds).foldl (fun G d => ghostDir d G) G).atoms q =
          G.atoms q ++ (newGhosts d G q ++ t) := by
        rw [List.foldl_cons, ht]; simp [ghostDir]
      beta_reduce
      rw [h1, List.getElem?_append_right (by omega), Nat.add_sub_cancel_left,
        List.getElem?_append_left (by rw [newGhosts_length hv]; exact hr), newGhosts_get hv]
      rw [List.getElem?_eq_getElem hr]
      simp only [Option.bind_some]
      rw [ht', List.getElem?_append_left (hv _ _ _ (List.getElem_mem hr))]
    · have := ih hds (ghostDir d G) (ghostDir_valid hv d)
      have e : (fun q => ((ghostDir d G).atoms q).length) = fun q => (G.atoms q).length +
          (((d :: ds).foldl (fun G d => ghostDir d G) G).send (source d q) d).length := by
        funext q
        rw [hsend]
        simp only [ghostDir, List.length_append, newGhosts_length hv]
      rw [e] at this
      exact this

theorem dirs_sorted : dirs.Pairwise fun d d' => d ≠ d' ∧ ¬ d'.1 < d.1 := by decide

/-! ### Copies -/

/-- All stored atoms and ghosts with their processor. -/
def copies (atoms : Proc N → List (Atom D)) : Multiset (Proc N × Atom D) :=
  ∑ p, (atoms p : Multiset (Atom D)).map (Prod.mk p)

theorem mem_copies {atoms : Proc N → List (Atom D)} {p : Proc N} {a : Atom D} :
    (p, a) ∈ copies atoms ↔ a ∈ atoms p := by
  classical
  rw [copies, Multiset.mem_sum]
  constructor
  · rintro ⟨q, _, h⟩
    simp only [Multiset.map_coe, Multiset.mem_coe, List.mem_map, Prod.mk.injEq] at h
    obtain ⟨b, hb, rfl, rfl⟩ := h
    exact hb
  · intro h
    exact ⟨p, Finset.mem_univ _, by simpa using h⟩

/-- Atoms selected by a send array. -/
def sel (G : GState N D) (p : Proc N) (d : Dir) : Multiset (Atom D) :=
  ((G.send p d).filterMap fun k => (G.atoms p)[k]? : List (Atom D))

/-- The send arrays of direction `d` contain exactly the atoms with the corresponding flag. -/
def Full (G : GState N D) (d : Dir) : Prop :=
  ∀ p, sel G p d = (G.atoms p : Multiset (Atom D)).filter fun a => a.plan.ghost d.1 d.2 = true

theorem sel_ghostDir_ge {G : GState N D} (hv : Valid G) (d d' : Dir) (p : Proc N)
    (h : ¬ d.1 < d'.1) : sel (ghostDir d G) p d' = sel G p d' := by
  simp only [sel, ghostDir, if_neg h]
  rw [filterMap_append_prefix _ _ _ (hv p d')]

theorem filterMap_range_filter {α : Type} (L M : List α) (f : α → Bool) :
    (((List.range' L.length M.length).filter fun k => (M[k - L.length]?.map f).getD false).filterMap
      fun k => (L ++ M)[k]?) = M.filter f := by
  induction M generalizing L with
  | nil => simp
  | cons m M ih =>
    rw [List.length_cons, List.range'_succ, List.filter_cons]
    have h1 : ((m :: M)[L.length - L.length]?.map f).getD false = f m := by simp
    rw [h1]
    have h2 : (List.range' (L.length + 1) M.length).filter
          (fun k => ((m :: M)[k - L.length]?.map f).getD false) =
        (List.range' (L ++ [m]).length M.length).filter
          (fun k => (M[k - (L ++ [m]).length]?.map f).getD false) := by
      rw [List.length_append, List.length_singleton]
      apply List.filter_congr
      intro k hk
      rw [List.mem_range'_1] at hk
      have : k - L.length = (k - (L.length + 1)) + 1 := by omega
      rw [this, List.getElem?_cons_succ]
    have h3 := ih (L ++ [m])
    have h4 : L ++ [m] ++ M = L ++ m :: M := by simp
    rw [h4] at h3
    rw [h2]
    by_cases hf : f m = true
    · have h5 : (L ++ m :: M)[L.length]? = some m := by simp
      rw [if_pos hf, List.filterMap_cons_some h5, h3, List.filter_cons_of_pos hf]
    · rw [if_neg hf, h3, List.filter_cons_of_neg hf]

theorem full_ghostDir {G : GState N D} (hv : Valid G) (d d' : Dir) (h : d.1 < d'.1)
    (hf : Full G d') : Full (ghostDir d G) d' := by
  intro p
  simp only [sel, ghostDir, if_pos h, List.filterMap_append, ← Multiset.coe_add]
  rw [filterMap_append_prefix _ _ _ (hv p d'), filterMap_range_filter]
  have := hf p
  rw [sel] at this
  rw [this, Multiset.filter_add]
  congr 1
  rw [Multiset.filter_coe]
  congr 1
  apply List.filter_congr
  intro a _
  cases a.plan.ghost d'.1 d'.2 <;> rfl

theorem copies_ghostDir (G : GState N D) (d : Dir) :
    copies (ghostDir d G).atoms = copies G.atoms +
      ∑ p, (sel G p d).map fun a => (dest d p, receive N d (shift d (dest d p)) a) := by
  simp only [copies, ghostDir, ← Multiset.coe_add, Multiset.map_add, Finset.sum_add_distrib]
  congr 1
  refine Finset.sum_equiv (sourceEquiv d) (by simp) ?_
  intro q _
  simp only [sourceEquiv, Equiv.coe_fn_mk, dest_source, newGhosts, sel, Multiset.map_coe,
    List.map_map, Function.comp_def]

/-- Copy made by transfer `d`. -/
noncomputable def copyDir (d : Dir) (c : Proc N × Atom D) : Proc N × Atom D :=
  (dest d c.1, receive N d (shift d (dest d c.1)) c.2)

/-- Copies after both transfers of direction `i`, including the original. -/
noncomputable def expand (i : Fin 3) (c : Proc N × Atom D) : Multiset (Proc N × Atom D) :=
  {c} + (if c.2.plan.ghost i 0 then {copyDir (i, 0) c} else 0) +
    (if c.2.plan.ghost i 1 then {copyDir (i, 1) c} else 0)

theorem copies_bind (atoms : Proc N → List (Atom D))
    (e : Proc N × Atom D → Multiset (Proc N × Atom D)) :
    (copies atoms).bind e = ∑ p, (atoms p : Multiset (Atom D)).bind fun a => e (p, a) := by
  rw [copies]
  have : ∀ s : Finset (Proc N),
      (∑ p ∈ s, (atoms p : Multiset (Atom D)).map (Prod.mk p)).bind e =
        ∑ p ∈ s, (atoms p : Multiset (Atom D)).bind fun a => e (p, a) := by
    classical
    intro s
    induction s using Finset.induction_on with
    | empty => simp
    | insert p s hp ih =>
      rw [Finset.sum_insert hp, Finset.sum_insert hp, Multiset.add_bind, ih, Multiset.bind_map]
  exact this _

theorem bind_option {α β : Type} (s : Multiset α) (f : α → Bool) (g : α → β) :
    s.bind (fun a => if f a then ({g a} : Multiset β) else 0) =
      (s.filter fun a => f a = true).map g := by
  induction s using Multiset.induction_on with
  | empty => simp
  | cons a s ih =>
    rw [Multiset.cons_bind, ih]
    by_cases h : f a = true
    · simp [h]
    · simp [h]

theorem copies_stage {G : GState N D} (hv : Valid G) (i : Fin 3) (h0 : Full G (i, 0))
    (h1 : Full G (i, 1)) :
    copies (ghostDir (i, 1) (ghostDir (i, 0) G)).atoms = (copies G.atoms).bind (expand i) := by
  rw [copies_ghostDir, copies_ghostDir]
  have hs : ∀ p, sel (ghostDir (i, 0) G) p (i, 1) = sel G p (i, 1) :=
    fun p => sel_ghostDir_ge hv _ _ p (lt_irrefl _)
  simp only [hs, h0 _, h1 _]
  rw [copies_bind]
  simp only [expand, Multiset.bind_add, Finset.sum_add_distrib]
  congr 1
  · congr 1
    · rw [copies]
      apply Finset.sum_congr rfl
      intro p _
      rw [Multiset.bind_singleton]
    · apply Finset.sum_congr rfl
      intro p _
      rw [bind_option (f := fun a : Atom D => a.plan.ghost i 0) (g := fun a => copyDir (i, 0) (p, a))]
      rfl
  · apply Finset.sum_congr rfl
    intro p _
    rw [bind_option (f := fun a : Atom D => a.plan.ghost i 1) (g := fun a => copyDir (i, 1) (p, a))]
    rfl

theorem copies_exchangeGhosts (atoms : Proc N → List (Atom D)) (send : Proc N → Dir → List ℕ)
    (hv : Valid ⟨atoms, send, fun _ _ => []⟩)
    (hf : ∀ d, Full ⟨atoms, send, fun _ _ => []⟩ d) :
    copies (exchangeGhosts atoms send).atoms =
      (((copies atoms).bind (expand 0)).bind (expand 1)).bind (expand 2) := by
  set G0 : GState N D := ⟨atoms, send, fun _ _ => []⟩ with hG0
  set G1 := ghostDir (0, 1) (ghostDir (0, 0) G0) with hG1
  set G2 := ghostDir (1, 1) (ghostDir (1, 0) G1) with hG2
  have hv1 : Valid G1 := ghostDir_valid (ghostDir_valid hv _) _
  have hv2 : Valid G2 := ghostDir_valid (ghostDir_valid hv1 _) _
  have f1 : ∀ d : Dir, (0 : Fin 3) < d.1 → Full G1 d := fun d h =>
    full_ghostDir (ghostDir_valid hv _) _ _ h (full_ghostDir hv _ _ h (hf d))
  have f2 : ∀ d : Dir, (1 : Fin 3) < d.1 → Full G2 d := fun d h =>
    full_ghostDir (ghostDir_valid hv1 _) _ _ h (full_ghostDir hv1 _ _ h
      (f1 d (lt_trans (by decide) h)))
  have e : exchangeGhosts atoms send = ghostDir (2, 1) (ghostDir (2, 0) G2) := rfl
  rw [e, copies_stage hv2 2 (f2 _ (by decide)) (f2 _ (by decide)), hG2,
    copies_stage hv1 1 (f1 _ (by decide)) (f1 _ (by decide)), hG1,
    copies_stage hv 0 (hf _) (hf _)]

/-! ### One direction -/

@[simp] theorem receive_data (d : Dir) (s : ℤ) (a : Atom D) : (receive N d s a).data = a.data := by
  unfold receive; simp only; split <;> simp
theorem receive_pos (d : Dir) (s : ℤ) (a : Atom D) : (receive N d s a).pos = (a.move d.1 s).pos := by
  unfold receive; simp only; split <;> rfl
theorem receive_ghost (d : Dir) (s : ℤ) (a : Atom D) (k : Fin 3) (j : Fin 2) (h : k ≠ d.1) :
    (receive N d s a).plan.ghost k j = a.plan.ghost k j := by
  unfold receive; simp only; split
  · rw [ghost_clearGhost]; simp [h]
  · simp

theorem mem_expand {i : Fin 3} {c c' : Proc N × Atom D} :
    c' ∈ expand i c ↔ c' = c ∨ (c.2.plan.ghost i 0 = true ∧ c' = copyDir (i, 0) c) ∨
      (c.2.plan.ghost i 1 = true ∧ c' = copyDir (i, 1) c) := by
  unfold expand
  by_cases h0 : c.2.plan.ghost i 0 = true <;> by_cases h1 : c.2.plan.ghost i 1 = true <;>
    simp [h0, h1, or_assoc]

/-- What every copy made in direction `i` has in common with the original. -/
theorem expand_frame {i : Fin 3} {c c' : Proc N × Atom D} (h : c' ∈ expand i c) :
    c'.2.data = c.2.data ∧ (∀ k, k ≠ i → c'.1 k = c.1 k ∧ c'.2.pos k = c.2.pos k ∧
      ∀ j, c'.2.plan.ghost k j = c.2.plan.ghost k j) ∧ ∃ n : ℤ, c'.2.pos i = c.2.pos i + n := by
  have key : ∀ j : Fin 2, c' = copyDir (i, j) c → c'.2.data = c.2.data ∧
      (∀ k, k ≠ i → c'.1 k = c.1 k ∧ c'.2.pos k = c.2.pos k ∧
      ∀ j, c'.2.plan.ghost k j = c.2.plan.ghost k j) ∧ ∃ n : ℤ, c'.2.pos i = c.2.pos i + n := by
    rintro j rfl
    refine ⟨by simp [copyDir], ?_, ?_⟩
    · intro k hk
      refine ⟨by simp [copyDir, dest, hk], ?_, ?_⟩
      · simp only [copyDir, receive_pos]; exact move_pos_ne _ _ _ _ hk
      · intro j'; exact receive_ghost _ _ _ _ _ hk
    · refine ⟨shift (i, j) (dest (i, j) c.1), ?_⟩
      simp only [copyDir, receive_pos]; exact move_pos_self _ _ _
  rcases mem_expand.1 h with rfl | ⟨-, h⟩ | ⟨-, h⟩
  · exact ⟨rfl, fun k _ => ⟨rfl, rfl, fun _ => rfl⟩, 0, by simp⟩
  · exact key 0 h
  · exact key 1 h

/-- Lower bound of the domain relative to the atom. -/
noncomputable def rel (i : Fin 3) (c : Proc N × Atom D) : ℝ := bound c.1 i 0 - c.2.pos i

theorem rel_copy_down (i : Fin 3) (c : Proc N × Atom D) :
    rel i (copyDir (i, 0) c) = rel i c - 1 / (N i : ℝ) := by
  have h1 := bound_dest_down c.1 i
  have h2 := bound_width (dest (i, 0) c.1) i
  have h3 : (copyDir (i, 0) c).2.pos i = c.2.pos i + shift (i, 0) (dest (i, 0) c.1) := by
    simp only [copyDir, receive_pos]; exact move_pos_self _ _ _
  simp only [rel, h3]
  change bound (dest (i, 0) c.1) i 0 - _ = _
  linarith

theorem rel_copy_up (i : Fin 3) (c : Proc N × Atom D) :
    rel i (copyDir (i, 1) c) = rel i c + 1 / (N i : ℝ) := by
  have h1 := bound_dest_up c.1 i
  have h2 := bound_width c.1 i
  have h3 : (copyDir (i, 1) c).2.pos i = c.2.pos i + shift (i, 1) (dest (i, 1) c.1) := by
    simp only [copyDir, receive_pos]; exact move_pos_self _ _ _
  simp only [rel, h3]
  change bound (dest (i, 1) c.1) i 0 - _ = _
  linarith

theorem expand_rel_nodup (i : Fin 3) (c : Proc N × Atom D) : ((expand i c).map (rel i)).Nodup := by
  have h0 := rel_copy_down i c
  have h1 := rel_copy_up i c
  have hw := width_pos c.1 i
  have n1 : rel i (copyDir (i, 0) c) ≠ rel i c := by rw [h0]; intro h; linarith
  have n2 : rel i (copyDir (i, 1) c) ≠ rel i c := by rw [h1]; intro h; linarith
  have n3 : rel i (copyDir (i, 0) c) ≠ rel i (copyDir (i, 1) c) := by rw [h0, h1]; intro h; linarith
  unfold expand
  by_cases g0 : c.2.plan.ghost i 0 = true <;> by_cases g1 : c.2.plan.ghost i 1 = true <;>
    simp [g0, g1, Multiset.nodup_add, n1, n2, n3, n1.symm, n2.symm, n3.symm]

/-- Coordinate within the open slab around the domain, for grid coordinate `c`. -/
def Ext1 (slab : Vec) (i : Fin 3) (c : Fin (N i)) (x : ℝ) : Prop :=
  (c.val : ℝ) * (1 / (N i : ℝ)) - slab i < x ∧ x < ((c.val : ℝ) + 1) * (1 / (N i : ℝ)) + slab i

theorem ext1_iff (slab : Vec) (q : Proc N) (i : Fin 3) (x : ℝ) :
    Ext1 slab i (q i) x ↔ bound q i 0 - slab i < x ∧ x < bound q i 1 + slab i := by
  have h3 : (((1 : Fin 2).val : ℕ) : ℝ) = 1 := by norm_num
  have h4 : (((0 : Fin 2).val : ℕ) : ℝ) = 0 := by norm_num
  simp only [Ext1, bound, h3, h4, add_zero]

/-- Flags are set at least where the geometry requires them. -/
def Covers (slab : Vec) (i : Fin 3) (c : Proc N × Atom D) : Prop :=
  bound c.1 i 0 ≤ c.2.pos i ∧ c.2.pos i ≤ bound c.1 i 1 ∧
  (c.2.pos i < bound c.1 i 0 + slab i → c.2.plan.ghost i 0 = true) ∧
  (bound c.1 i 1 - slab i < c.2.pos i → c.2.plan.ghost i 1 = true)

/-- Flags are set only where the geometry requires them. -/
def Tight (slab : Vec) (i : Fin 3) (c : Proc N × Atom D) : Prop :=
  bound c.1 i 0 ≤ c.2.pos i ∧ c.2.pos i ≤ bound c.1 i 1 ∧
  (c.2.plan.ghost i 0 = true → c.2.pos i < bound c.1 i 0 + slab i) ∧
  (c.2.plan.ghost i 1 = true → bound c.1 i 1 - slab i < c.2.pos i)

theorem expand_sound {slab : Vec} {i : Fin 3} {c c' : Proc N × Atom D} (h : Tight slab i c)
    (hs : 0 < slab i) (hc : c' ∈ expand i c) : Ext1 slab i (c'.1 i) (c'.2.pos i) := by
  rw [ext1_iff]
  obtain ⟨hlo, hhi, h0, h1⟩ := h
  have hw := bound_width c'.1 i
  have hwc := bound_width c.1 i
  rcases mem_expand.1 hc with rfl | ⟨g, rfl⟩ | ⟨g, rfl⟩
  · constructor <;> linarith
  · have hr := rel_copy_down i c
    have := h0 g
    simp only [rel] at hr
    constructor <;> linarith
  · have hr := rel_copy_up i c
    have := h1 g
    simp only [rel] at hr
    constructor <;> linarith

/-- Coordinates and shift are determined by the unrolled coordinate. -/
theorem unroll_unique {n : ℕ} {c c' : Fin n} {m m' : ℤ}
    (h : (c.val : ℤ) - m * n = (c'.val : ℤ) - m' * n) : c = c' ∧ m = m' := by
  have h1 := c.2
  have h2 := c'.2
  have hm : m = m' := by
    by_contra hne
    rcases lt_or_gt_of_ne hne with hlt | hgt
    · have : (m + 1) * (n : ℤ) ≤ m' * n := by
        apply Int.mul_le_mul_of_nonneg_right <;> omega
      have e : (m + 1) * (n : ℤ) = m * n + n := by ring
      rw [e] at this
      omega
    · have : (m' + 1) * (n : ℤ) ≤ m * n := by
        apply Int.mul_le_mul_of_nonneg_right <;> omega
      have e : (m' + 1) * (n : ℤ) = m' * n + n := by ring
      rw [e] at this
      omega
  subst hm
  exact ⟨Fin.ext (by omega), rfl⟩

theorem expand_complete {slab : Vec} {i : Fin 3} {c : Proc N × Atom D} (h : Covers slab i c)
    (hs1 : slab i ≤ 1 / (N i : ℝ)) (k : Fin (N i)) (n : ℤ)
    (hx : Ext1 slab i k (c.2.pos i + n)) :
    ∃ c' ∈ expand i c, c'.1 i = k ∧ c'.2.pos i = c.2.pos i + n := by
  obtain ⟨hlo, hhi, g0, g1⟩ := h
  have hw := bound_width c.1 i
  have hpos := width_pos c.1 i
  have hN : (0 : ℝ) < N i := by have := k.2; exact_mod_cast (by omega : 0 < N i)
  have hwN : (1 / (N i : ℝ)) * N i = 1 := by field_simp
  set w := 1 / (N i : ℝ) with hwdef
  -- unrolled coordinate of the target
  set u : ℤ := (k.val : ℤ) - n * N i with hu
  have hk : ((k.val : ℝ)) * w = (u : ℝ) * w + n := by
    rw [hu]; push_cast
    have : (n : ℝ) = n * (w * N i) := by rw [hwN, mul_one]
    nlinarith [this]
  have hb0 : bound c.1 i 0 = ((c.1 i).val : ℝ) * w := by
    simp [bound, hwdef]
  obtain ⟨hx0, hx1⟩ := hx
  rw [← hwdef] at hx0 hx1
  have hx0' : (u : ℝ) * w - slab i < c.2.pos i := by linarith
  have hx1' : c.2.pos i < (u : ℝ) * w + w + slab i := by
    have : ((k.val : ℝ) + 1) * w = (k.val : ℝ) * w + w := by ring
    linarith
  have hlow : ((c.1 i).val : ℤ) - 1 ≤ u := by
    by_contra hlt
    have h2 : u + 2 ≤ ((c.1 i).val : ℤ) := by omega
    have h3 : ((u : ℝ) + 2) ≤ ((c.1 i).val : ℝ) := by exact_mod_cast h2
    have h4 : ((u : ℝ) + 2) * w ≤ ((c.1 i).val : ℝ) * w := mul_le_mul_of_nonneg_right h3 hpos.le
    nlinarith
  have hhigh : u ≤ ((c.1 i).val : ℤ) + 1 := by
    by_contra hlt
    have h2 : ((c.1 i).val : ℤ) + 2 ≤ u := by omega
    have h3 : (((c.1 i).val : ℝ) + 2) ≤ (u : ℝ) := by exact_mod_cast h2
    have h4 : (((c.1 i).val : ℝ) + 2) * w ≤ (u : ℝ) * w := mul_le_mul_of_nonneg_right h3 hpos.le
    nlinarith
  have hcase : u = (c.1 i).val - 1 ∨ u = (c.1 i).val ∨ u = (c.1 i).val + 1 := by omega
  rcases hcase with hu1 | hu1 | hu1
  · -- lower neighbour
    have hu2 : (u : ℝ) = ((c.1 i).val : ℝ) - 1 := by rw [hu1]; push_cast; ring
    rw [hu2] at hx1'
    have hg : c.2.plan.ghost i 0 = true := g0 (by rw [hb0]; nlinarith)
    refine ⟨copyDir (i, 0) c, mem_expand.2 (Or.inr (Or.inl ⟨hg, rfl⟩)), ?_⟩
    have h3 : (copyDir (i, 0) c).2.pos i = c.2.pos i + shift (i, 0) (dest (i, 0) c.1) := by
      simp only [copyDir, receive_pos]; exact move_pos_self _ _ _
    have h4 := up_unroll (down (c.1 i))
    rw [up_down] at h4
    have h5 : (dest (i, 0) c.1) i = down (c.1 i) := by simp [dest]
    have h6 : shift (i, 0) (dest (i, 0) c.1) = if (down (c.1 i)).val + 1 = N i then 1 else 0 := by
      simp only [shift, if_true, h5]
    have h7 := unroll_unique (c := k) (c' := down (c.1 i)) (m := n)
      (m' := shift (i, 0) (dest (i, 0) c.1)) (by rw [h6]; omega)
    exact ⟨h5.trans h7.1.symm, by rw [h3, h7.2]⟩
  · refine ⟨c, mem_expand.2 (Or.inl rfl), ?_⟩
    have h7 := unroll_unique (c := k) (c' := c.1 i) (m := n) (m' := 0) (by omega)
    exact ⟨h7.1.symm, by rw [h7.2]; simp⟩
  · have hu2 : (u : ℝ) = ((c.1 i).val : ℝ) + 1 := by rw [hu1]; push_cast; ring
    rw [hu2] at hx0'
    have hg : c.2.plan.ghost i 1 = true := g1 (by rw [hw, hb0]; nlinarith)
    refine ⟨copyDir (i, 1) c, mem_expand.2 (Or.inr (Or.inr ⟨hg, rfl⟩)), ?_⟩
    have h3 : (copyDir (i, 1) c).2.pos i = c.2.pos i + shift (i, 1) (dest (i, 1) c.1) := by
      simp only [copyDir, receive_pos]; exact move_pos_self _ _ _
    have h4 := down_unroll (up (c.1 i))
    rw [down_up] at h4
    have h10 : ¬ ((1 : Fin 2) = 0) := by decide
    have h5 : (dest (i, 1) c.1) i = up (c.1 i) := by simp [dest]
    have h6 : shift (i, 1) (dest (i, 1) c.1) = if (up (c.1 i)).val = 0 then -1 else 0 := by
      simp only [shift, if_neg h10, h5]
    have h7 := unroll_unique (c := k) (c' := up (c.1 i)) (m := n)
      (m' := shift (i, 1) (dest (i, 1) c.1)) (by rw [h6]; omega)
    exact ⟨h5.trans h7.1.symm, by rw [h3, h7.2]⟩

/-! ### Uniqueness -/

theorem nodup_bind_key {α κ μ : Type} (S : Multiset α) (e : α → Multiset α) (k : α → κ)
    (u : α → μ) (hS : (S.map k).Nodup) (hk : ∀ c ∈ S, ∀ c' ∈ e c, k c' = k c)
    (hu : ∀ c ∈ S, ((e c).map u).Nodup) :
    ((S.bind e).map fun c => (k c, u c)).Nodup := by
  induction S using Multiset.induction_on with
  | empty => simp
  | cons c S ih =>
    rw [Multiset.map_cons, Multiset.nodup_cons] at hS
    rw [Multiset.cons_bind, Multiset.map_add, Multiset.nodup_add]
    refine ⟨?_, ih hS.2 (fun c hc => hk c (Multiset.mem_cons_of_mem hc))
      (fun c hc => hu c (Multiset.mem_cons_of_mem hc)), ?_⟩
    · have := hu c (Multiset.mem_cons_self c S)
      apply Multiset.Nodup.of_map Prod.snd
      rw [Multiset.map_map]
      exact this
    · rw [Multiset.disjoint_left]
      intro x hx hx'
      rw [Multiset.mem_map] at hx hx'
      obtain ⟨y, hy, rfl⟩ := hx
      obtain ⟨y', hy', he⟩ := hx'
      rw [Multiset.mem_bind] at hy'
      obtain ⟨c', hc', hy'⟩ := hy'
      have h1 := hk c (Multiset.mem_cons_self c S) y hy
      have h2 := hk c' (Multiset.mem_cons_of_mem hc') y' hy'
      have h3 : k y' = k y := congrArg Prod.fst he
      apply hS.1
      rw [← h1, ← h3, h2]
      exact Multiset.mem_map_of_mem _ hc'

theorem copies_nodup (S : Multiset (Proc N × Atom D)) (hS : (S.map fun c => c.2.data).Nodup) :
    (((((S.bind (expand 0)).bind (expand 1)).bind (expand 2))).map
      fun c => (c.1, c.2.data, c.2.pos)).Nodup := by
  have h0 := nodup_bind_key S (expand 0) (fun c => c.2.data) (rel 0) hS
    (fun c _ c' hc' => (expand_frame hc').1) (fun c _ => expand_rel_nodup 0 c)
  have r01 : ∀ c c' : Proc N × Atom D, c' ∈ expand 1 c → rel 0 c' = rel 0 c := by
    intro c c' h
    obtain ⟨-, hk, -⟩ := expand_frame h
    obtain ⟨h1, h2, -⟩ := hk 0 (by decide)
    simp only [rel, h2, bound_congr h1]
  have r2 : ∀ k : Fin 3, k ≠ 2 → ∀ c c' : Proc N × Atom D, c' ∈ expand 2 c → rel k c' = rel k c := by
    intro k hk2 c c' h
    obtain ⟨-, hk, -⟩ := expand_frame h
    obtain ⟨h1, h2, -⟩ := hk k hk2
    simp only [rel, h2, bound_congr h1]
  have h1 := nodup_bind_key _ (expand 1) _ (rel 1) h0
    (fun c _ c' hc' => by rw [(expand_frame hc').1, r01 c c' hc']) (fun c _ => expand_rel_nodup 1 c)
  have h2 := nodup_bind_key _ (expand 2) _ (rel 2) h1
    (fun c _ c' hc' => by
      rw [(expand_frame hc').1, r2 0 (by decide) c c' hc', r2 1 (by decide) c c' hc'])
    (fun c _ => expand_rel_nodup 2 c)
  apply Multiset.Nodup.of_map (fun t : Proc N × D × Vec =>
    (((t.2.1, bound t.1 0 0 - t.2.2 0), bound t.1 1 0 - t.2.2 1), bound t.1 2 0 - t.2.2 2))
  rw [Multiset.map_map]
  exact h2

/-! ### All directions -/

theorem triple_frame {c c0 c1 c2 : Proc N × Atom D} (h0 : c0 ∈ expand 0 c) (h1 : c1 ∈ expand 1 c0)
    (h2 : c2 ∈ expand 2 c1) :
    c2.2.data = c.2.data ∧ (∀ i, ∃ n : ℤ, c2.2.pos i = c.2.pos i + n) := by
  obtain ⟨d0, k0, n0, m0⟩ := expand_frame h0
  obtain ⟨d1, k1, n1, m1⟩ := expand_frame h1
  obtain ⟨d2, k2, n2, m2⟩ := expand_frame h2
  refine ⟨d2.trans (d1.trans d0), ?_⟩
  intro i
  fin_cases i
  · refine ⟨n0, ?_⟩
    change c2.2.pos 0 = c.2.pos 0 + n0
    rw [(k2 0 (by decide)).2.1, (k1 0 (by decide)).2.1, m0]
  · refine ⟨n1, ?_⟩
    change c2.2.pos 1 = c.2.pos 1 + n1
    rw [(k2 1 (by decide)).2.1, m1, (k0 1 (by decide)).2.1]
  · refine ⟨n2, ?_⟩
    change c2.2.pos 2 = c.2.pos 2 + n2
    rw [m2, (k1 2 (by decide)).2.1, (k0 2 (by decide)).2.1]

theorem tight_congr {slab : Vec} {i : Fin 3} {c c' : Proc N × Atom D} (h : Tight slab i c)
    (h1 : c'.1 i = c.1 i) (h2 : c'.2.pos i = c.2.pos i)
    (h3 : ∀ j, c'.2.plan.ghost i j = c.2.plan.ghost i j) : Tight slab i c' := by
  unfold Tight
  rw [h2, h3, h3, bound_congr h1, bound_congr h1]
  exact h

theorem covers_congr {slab : Vec} {i : Fin 3} {c c' : Proc N × Atom D} (h : Covers slab i c)
    (h1 : c'.1 i = c.1 i) (h2 : c'.2.pos i = c.2.pos i)
    (h3 : ∀ j, c'.2.plan.ghost i j = c.2.plan.ghost i j) : Covers slab i c' := by
  unfold Covers
  rw [h2, h3, h3, bound_congr h1, bound_congr h1]
  exact h

theorem triple_sound {slab : Vec} {c c0 c1 c2 : Proc N × Atom D} (ht : ∀ i, Tight slab i c)
    (hs : ∀ i, 0 < slab i) (h0 : c0 ∈ expand 0 c) (h1 : c1 ∈ expand 1 c0) (h2 : c2 ∈ expand 2 c1) :
    ∀ i, Ext1 slab i (c2.1 i) (c2.2.pos i) := by
  obtain ⟨-, k0, -⟩ := expand_frame h0
  obtain ⟨-, k1, -⟩ := expand_frame h1
  obtain ⟨-, k2, -⟩ := expand_frame h2
  have e0 := expand_sound (ht 0) (hs 0) h0
  obtain ⟨a1, b1, g1⟩ := k0 1 (by decide)
  have e1 := expand_sound (tight_congr (ht 1) a1 b1 g1) (hs 1) h1
  obtain ⟨a2, b2, g2⟩ := k0 2 (by decide)
  obtain ⟨a3, b3, g3⟩ := k1 2 (by decide)
  have e2 := expand_sound (tight_congr (tight_congr (ht 2) a2 b2 g2) a3 b3 g3) (hs 2) h2
  intro i
  fin_cases i
  · change Ext1 slab 0 (c2.1 0) (c2.2.pos 0)
    rw [(k2 0 (by decide)).1, (k2 0 (by decide)).2.1, (k1 0 (by decide)).1, (k1 0 (by decide)).2.1]
    exact e0
  · change Ext1 slab 1 (c2.1 1) (c2.2.pos 1)
    rw [(k2 1 (by decide)).1, (k2 1 (by decide)).2.1]
    exact e1
  · exact e2

theorem triple_complete {slab : Vec} {c : Proc N × Atom D} (ht : ∀ i, Covers slab i c)
    (hs : ∀ i, slab i ≤ 1 / (N i : ℝ)) (q : Proc N) (n : Fin 3 → ℤ)
    (hx : ∀ i, Ext1 slab i (q i) (c.2.pos i + n i)) :
    ∃ c0 ∈ expand 0 c, ∃ c1 ∈ expand 1 c0, ∃ c2 ∈ expand 2 c1,
      c2.1 = q ∧ ∀ i, c2.2.pos i = c.2.pos i + n i := by
  obtain ⟨c0, h0, p0, x0⟩ := expand_complete (ht 0) (hs 0) (q 0) (n 0) (hx 0)
  obtain ⟨-, k0, -⟩ := expand_frame h0
  obtain ⟨a1, b1, g1⟩ := k0 1 (by decide)
  obtain ⟨c1, h1, p1, x1⟩ := expand_complete (covers_congr (ht 1) a1 b1 g1) (hs 1) (q 1) (n 1)
    (by rw [b1]; exact hx 1)
  obtain ⟨-, k1, -⟩ := expand_frame h1
  obtain ⟨a2, b2, g2⟩ := k0 2 (by decide)
  obtain ⟨a3, b3, g3⟩ := k1 2 (by decide)
  obtain ⟨c2, h2, p2, x2⟩ := expand_complete
    (covers_congr (covers_congr (ht 2) a2 b2 g2) a3 b3 g3) (hs 2) (q 2) (n 2)
    (by rw [b3, b2]; exact hx 2)
  obtain ⟨-, k2, -⟩ := expand_frame h2
  refine ⟨c0, h0, c1, h1, c2, h2, ?_, ?_⟩
  · funext i
    fin_cases i
    · change c2.1 0 = q 0
      rw [(k2 0 (by decide)).1, (k1 0 (by decide)).1, p0]
    · change c2.1 1 = q 1
      rw [(k2 1 (by decide)).1, p1]
    · exact p2
  · intro i
    fin_cases i
    · change c2.2.pos 0 = c.2.pos 0 + n 0
      rw [(k2 0 (by decide)).2.1, (k1 0 (by decide)).2.1, x0]
    · change c2.2.pos 1 = c.2.pos 1 + n 1
      rw [(k2 1 (by decide)).2.1, x1, b1]
    · change c2.2.pos 2 = c.2.pos 2 + n 2
      rw [x2, b3, b2]

end Verif.DdExchange
