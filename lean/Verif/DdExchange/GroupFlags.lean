import Verif.DdExchange.GroupPath

/-! Flags set by `markGhosts`, and exchange of ghosts with these flags. -/

set_option autoImplicit false

namespace Verif.DdExchange

open Verif.Boundary Verif.DdChem Verif.Cpp

variable {N : Fin 3 → ℕ} {D K : Type}

/-- Same atom, with possibly more ghost flags. -/
def Marked (a b : Atom D) : Prop :=
  b.data = a.data ∧ b.pos = a.pos ∧ ∀ i j, a.plan.ghost i j = true → b.plan.ghost i j = true

theorem Marked.rfl' (a : Atom D) : Marked a a := ⟨rfl, rfl, fun _ _ h => h⟩

theorem Marked.trans {a b c : Atom D} (h : Marked a b) (h' : Marked b c) : Marked a c :=
  ⟨h'.1.trans h.1, h'.2.1.trans h.2.1, fun i j hx => h'.2.2 i j (h.2.2 i j hx)⟩

/-- Same atoms, in the same order. -/
def MarkedL (l l' : List (Atom D)) : Prop := List.Forall₂ Marked l l'

theorem MarkedL.refl' (l : List (Atom D)) : MarkedL l l := List.forall₂_same.2 fun a _ => Marked.rfl' a

theorem MarkedL.trans {l l' l'' : List (Atom D)} (h : MarkedL l l') (h' : MarkedL l' l'') : MarkedL l l'' := by
  unfold MarkedL at *
  induction h generalizing l'' with
  | nil => exact h'
  | cons hab _ ih =>
    cases h' with
    | cons hbc hl => exact List.Forall₂.cons (hab.trans hbc) (ih hl)

theorem MarkedL.data {l l' : List (Atom D)} (h : MarkedL l l') : l'.map (·.data) = l.map (·.data) := by
  unfold MarkedL at h
  induction h with
  | nil => rfl
  | cons hab _ ih => simp only [List.map_cons, ih, hab.1]

theorem MarkedL.mem_right {l l' : List (Atom D)} (h : MarkedL l l') {b : Atom D} (hb : b ∈ l') :
    ∃ a ∈ l, Marked a b := by
  unfold MarkedL at h
  induction h with
  | nil => simp at hb
  | cons hab _ ih =>
    rcases List.mem_cons.1 hb with rfl | hb
    · exact ⟨_, by simp, hab⟩
    · obtain ⟨a, ha, h⟩ := ih hb
      exact ⟨a, by simp [ha], h⟩

theorem MarkedL.mem_left {l l' : List (Atom D)} (h : MarkedL l l') {a : Atom D} (ha : a ∈ l) :
    ∃ b ∈ l', Marked a b := by
  unfold MarkedL at h
  induction h with
  | nil => simp at ha
  | cons hab _ ih =>
    rcases List.mem_cons.1 ha with rfl | ha
    · exact ⟨_, by simp, hab⟩
    · obtain ⟨b, hb, h⟩ := ih ha
      exact ⟨b, by simp [hb], h⟩

/-- The send arrays contain exactly the atoms with the corresponding flag. -/
def SendOK (s : Local D) : Prop :=
  ∀ d, (s.send d).Perm ((s.atoms.filter fun a => a.plan.ghost d.1 d.2).map (·.data))

theorem setFlag_marked (d : Dir) (s : Local D) (x : D) : MarkedL s.atoms (setFlag d s x).atoms := by
  classical
  unfold setFlag
  split
  · unfold MarkedL
    rw [List.forall₂_map_right_iff]
    apply List.forall₂_same.2
    intro a _
    split
    · refine ⟨rfl, rfl, fun i j h => ?_⟩
      simp only [ghost_setGhost, h]
      split <;> rfl
    · exact Marked.rfl' a
  · exact MarkedL.refl' _

/-- The flag is set. -/
theorem setFlag_set (d : Dir) (s : Local D) (x : D) :
    ∀ b ∈ (setFlag d s x).atoms, b.data = x → b.plan.ghost d.1 d.2 = true := by
  classical
  unfold setFlag
  split
  · intro b hb hx
    obtain ⟨a, ha, rfl⟩ := List.mem_map.1 hb
    by_cases h : a.data = x
    · simp [h, ghost_setGhost]
    · simp only [if_neg h] at hx
      exact absurd hx h
  · rename_i h
    intro b hb hx
    by_contra hf
    apply h
    rw [List.any_eq_true]
    exact ⟨b, hb, by simp [hx, hf]⟩

theorem filter_setGhost {l : List (Atom D)} (hnd : (l.map (·.data)).Nodup) (d : Dir) (x : D) {a : Atom D} (ha : a ∈ l)
    (hx : a.data = x) (hf : a.plan.ghost d.1 d.2 = false) [DecidableEq D] :
    (((l.map fun a => if a.data = x then { a with plan := a.plan.setGhost d.1 d.2 } else a).filter
      fun a => a.plan.ghost d.1 d.2).map (·.data)).Perm
      (((l.filter fun a => a.plan.ghost d.1 d.2).map (·.data)) ++ [x]) := by
  induction l with
  | nil => simp at ha
  | cons c l ih =>
    rw [List.map_cons, List.nodup_cons] at hnd
    rcases List.mem_cons.1 ha with rfl | ha
    · have hrest : (l.map fun c => if c.data = x then { c with plan := c.plan.setGhost d.1 d.2 } else c) = l := by
        rw [List.map_congr_left (g := id), List.map_id]
        intro c hc
        rw [if_neg]; rfl
        intro e
        exact hnd.1 (List.mem_map.2 ⟨c, hc, e.trans hx.symm⟩)
      rw [List.map_cons, hrest, if_pos hx, List.filter_cons_of_pos (by simp [ghost_setGhost]),
        List.filter_cons_of_neg (by simp [hf])]
      rw [List.map_cons, hx]
      exact (List.perm_append_singleton _ _).symm
    · have hcx : c.data ≠ x := fun e => hnd.1 (List.mem_map.2 ⟨a, ha, hx.trans e.symm⟩)
      rw [List.map_cons, if_neg hcx]
      by_cases hc : c.plan.ghost d.1 d.2 = true
      · rw [List.filter_cons_of_pos (by exact hc), List.filter_cons_of_pos (by exact hc), List.map_cons, List.map_cons, List.cons_append]
        exact (ih hnd.2 ha).cons _
      · rw [List.filter_cons_of_neg (by exact hc), List.filter_cons_of_neg (by exact hc)]
        exact ih hnd.2 ha

theorem setFlag_send (d : Dir) (s : Local D) (x : D) (hnd : (s.atoms.map (·.data)).Nodup) (h : SendOK s) :
    SendOK (setFlag d s x) := by
  classical
  unfold setFlag
  split
  · rename_i hc
    rw [List.any_eq_true] at hc
    obtain ⟨a, ha, hax⟩ := hc
    simp only [Bool.and_eq_true, decide_eq_true_eq, Bool.not_eq_true'] at hax
    intro d'
    by_cases hd : d' = d
    · subst hd
      simp only [Function.update_self]
      refine ((h d').append_right [x]).trans ?_
      have := filter_setGhost hnd d' x ha hax.1 hax.2
      convert this.symm
    · simp only [Function.update_of_ne hd]
      refine (h d').trans (List.Perm.of_eq ?_)
      have : ∀ l : List (Atom D), ((l.map fun a => if a.data = x then { a with plan := a.plan.setGhost d.1 d.2 } else a).filter
          fun a => a.plan.ghost d'.1 d'.2).map (·.data) = (l.filter fun a => a.plan.ghost d'.1 d'.2).map (·.data) := by
        intro l
        induction l with
        | nil => rfl
        | cons c l ih =>
          have hg : (if c.data = x then { c with plan := c.plan.setGhost d.1 d.2 } else c : Atom D).plan.ghost d'.1 d'.2 =
              c.plan.ghost d'.1 d'.2 := by
            split
            · simp only [ghost_setGhost]
              rw [if_neg]
              rintro ⟨e1, e2⟩
              exact hd (Prod.ext e1 e2)
            · rfl
          have hdat : (if c.data = x then { c with plan := c.plan.setGhost d.1 d.2 } else c : Atom D).data = c.data := by
            split <;> rfl
          rw [List.map_cons]
          by_cases hc : c.plan.ghost d'.1 d'.2 = true
          · rw [List.filter_cons_of_pos (by rw [hg]; exact hc), List.filter_cons_of_pos (by exact hc), List.map_cons, List.map_cons,
              ih, hdat]
          · rw [List.filter_cons_of_neg (by rw [hg]; exact hc), List.filter_cons_of_neg (by exact hc), ih]
      exact (this _).symm
  · exact h

/-- What all loops of `markGhosts` preserve. -/
def Grows (s s' : Local D) : Prop :=
  MarkedL s.atoms s'.atoms ∧ ((s.atoms.map (·.data)).Nodup → SendOK s → SendOK s')

theorem Grows.refl' (s : Local D) : Grows s s := ⟨MarkedL.refl' _, fun _ h => h⟩

theorem Grows.trans {s s' s'' : Local D} (h : Grows s s') (h' : Grows s' s'') : Grows s s'' :=
  ⟨h.1.trans h'.1, fun hn hs => h'.2 (by rw [h.1.data]; exact hn) (h.2 hn hs)⟩

theorem grows_foldl {α : Type} (f : Local D → α → Local D) (hf : ∀ s x, Grows s (f s x)) (l : List α) (s : Local D) :
    Grows s (l.foldl f s) := by
  induction l generalizing s with
  | nil => exact Grows.refl' s
  | cons x l ih => exact (hf s x).trans (ih _)

theorem grows_setFlag (d : Dir) (s : Local D) (x : D) : Grows s (setFlag d s x) :=
  ⟨setFlag_marked d s x, fun hn h => setFlag_send d s x hn h⟩

theorem grows_flagDir (g : Grp K D) (s : Local D) (d : Dir) : Grows s (flagDir (N := N) g s d) := by
  unfold flagDir
  split
  · apply grows_foldl
    intro s x
    split
    · exact grows_setFlag d s x
    · exact Grows.refl' s
  · exact Grows.refl' s

theorem grows_flagGroup (g : Grp K D) (s : Local D) : Grows s (flagGroup N s g) := by
  unfold flagGroup
  split
  · exact Grows.refl' s
  · exact grows_foldl _ (fun s d => grows_flagDir g s d) _ _

theorem grows_markGhosts (s : PState K D) : Grows s.base (markGhosts N s).base :=
  grows_foldl _ (fun s g => grows_flagGroup g s) _ _

/-- All atoms with data `x` have flag `d`. -/
def HasFlag (d : Dir) (x : D) (s : Local D) : Prop := ∀ a ∈ s.atoms, a.data = x → a.plan.ghost d.1 d.2 = true

theorem HasFlag.mono {d : Dir} {x : D} {s s' : Local D} (h : Grows s s') (hf : HasFlag d x s) : HasFlag d x s' := by
  intro b hb hx
  obtain ⟨a, ha, hm⟩ := h.1.mem_right hb
  exact hm.2.2 _ _ (hf a ha (hm.1.symm.trans hx))

theorem hasFlag_foldl {α : Type} {d : Dir} {x : D} (f : Local D → α → Local D) (hf : ∀ s y, Grows s (f s y)) (l : List α)
    {y : α} (hy : y ∈ l) (h : ∀ s, HasFlag d x (f s y)) (s : Local D) : HasFlag d x (l.foldl f s) := by
  induction l generalizing s with
  | nil => simp at hy
  | cons z l ih =>
    rcases List.mem_cons.1 hy with rfl | hy
    · exact (h s).mono (grows_foldl f hf l _)
    · exact ih hy _

/-- Atoms of an incomplete group get the flags of the group. -/
theorem hasFlag_markGhosts (s : PState K D) {g : Grp K D} (hg : g ∈ s.groups) (hc : ¬ g.complete = true) {d : Dir}
    (hd : gridFlag N d.1 = true) (hp : g.plan.ghost d.1 d.2 = true) {x : D} (hx : x ∈ g.ids)
    (hptr : (g.ptr x).isSome = true) : HasFlag d x (markGhosts N s).base := by
  refine hasFlag_foldl _ (fun s g => grows_flagGroup g s) _ hg ?_ _
  intro s
  unfold flagGroup
  rw [if_neg hc]
  have hdm : d ∈ dirs := by
    obtain ⟨i, j⟩ := d
    fin_cases i <;> fin_cases j <;> simp [dirs]
  refine hasFlag_foldl _ (fun s d => grows_flagDir g s d) _ hdm ?_ _
  intro s
  unfold flagDir
  rw [if_pos (by simp [hd, hp])]
  refine hasFlag_foldl _ ?_ _ hx ?_ _
  · intro s y
    split
    · exact grows_setFlag d s y
    · exact Grows.refl' s
  · intro s
    rw [if_pos hptr]
    exact setFlag_set d s x

/-- Send arrays as indices are valid and complete, for any flags. -/
theorem resolve_sendOK (L : Proc N → Local D) (hid : Distinct fun p => (L p).atoms) (hs : ∀ q, SendOK (L q)) :
    Valid (⟨fun q => (L q).atoms, fun q d => resolve (L q).atoms ((L q).send d), fun _ _ => []⟩ : GState N D) ∧
    ∀ d, Full (⟨fun q => (L q).atoms, fun q d => resolve (L q).atoms ((L q).send d), fun _ _ => []⟩ : GState N D) d := by
  classical
  have hmem : ∀ q d, ∀ x ∈ (L q).send d, x ∈ (L q).atoms.map (·.data) := by
    intro q d x hx
    have := (hs q d).mem_iff.1 hx
    rw [List.mem_map] at this ⊢
    obtain ⟨a, ha, rfl⟩ := this
    exact ⟨a, (List.mem_filter.1 ha).1, rfl⟩
  have hnd := distinct_local hid
  constructor
  · intro q d k hk
    simp only [resolve, List.mem_map] at hk
    obtain ⟨x, hx, rfl⟩ := hk
    have := List.idxOf_lt_length_iff.2 (hmem q d x hx)
    rw [List.length_map] at this
    convert this
  · intro d q
    obtain ⟨A, hA⟩ : ∃ A, A = (L q).atoms := ⟨_, rfl⟩
    have hnq : (A.map (·.data)).Nodup := by rw [hA]; exact hnd q
    have hinv : ∀ a ∈ A, A[(A.map (·.data)).idxOf a.data]? = some a := by
      intro a ha
      obtain ⟨k, hk, rfl⟩ := List.getElem_of_mem ha
      have h1 : (A.map (·.data))[k]'(by simpa using hk) = A[k].data := by simp
      have h2 : (A.map (·.data)).idxOf A[k].data = k := by
        rw [← h1]
        exact hnq.idxOf_getElem k (by simpa using hk)
      rw [h2]
      exact List.getElem?_eq_getElem hk
    have hperm := hs q d
    have h1 : sel (⟨fun q => (L q).atoms, fun q d => resolve (L q).atoms ((L q).send d), fun _ _ => []⟩ : GState N D) q d =
        ((((L q).send d).filterMap fun x => A[(A.map (·.data)).idxOf x]? : List (Atom D)) : Multiset (Atom D)) := by
      simp only [sel, resolve, List.filterMap_map, ← hA, Function.comp_def]
    rw [h1]
    have h2 := (hperm.filterMap fun x => A[(A.map (·.data)).idxOf x]?)
    rw [← hA, List.filterMap_map] at h2
    have h3 : (A.filter fun a => a.plan.ghost d.1 d.2).filterMap
        ((fun x => A[(A.map (·.data)).idxOf x]?) ∘ fun a => a.data) =
        A.filter fun a => a.plan.ghost d.1 d.2 := by
      rw [List.filterMap_congr (g := some)]
      · exact List.filterMap_some
      · intro a ha
        exact hinv a (List.mem_filter.1 ha).1
    rw [h3] at h2
    rw [Multiset.coe_eq_coe.2 h2, Multiset.filter_coe, hA]
    congr 1
    apply List.filter_congr
    intro a _
    cases a.plan.ghost d.1 d.2 <;> rfl

theorem sendOK_exchangeAtomsG (slab : Vec) (G : Proc N → PState K D) (hid : Distinct fun p => (bases G p).atoms)
    (q : Proc N) : SendOK (exchangeAtomsG slab G q).base := by
  have hb : (transfer slab G q).base = exchangeAtoms slab (bases G) q := congrFun (bases_transfer slab G) q
  refine (grows_markGhosts (N := N) (transfer slab G q)).2 ?_ ?_
  · rw [hb]; exact distinct_local (distinct_exchangeAtoms slab (bases G) hid) q
  · rw [hb]; exact fun d => send_exchangeAtoms slab (bases G) q d

theorem marked_exchangeAtomsG (slab : Vec) (G : Proc N → PState K D) (q : Proc N) :
    MarkedL (exchangeAtoms slab (bases G) q).atoms (exchangeAtomsG slab G q).base.atoms := by
  have hb : (transfer slab G q).base = exchangeAtoms slab (bases G) q := congrFun (bases_transfer slab G) q
  have := (grows_markGhosts (N := N) (transfer slab G q)).1
  rw [hb] at this
  exact this

theorem copies_map_data (atoms atoms' : Proc N → List (Atom D)) (h : ∀ p, (atoms' p).map (·.data) = (atoms p).map (·.data)) :
    (copies atoms').map (fun c => c.2.data) = (copies atoms).map fun c => c.2.data := by
  have e : ∀ A : Proc N → List (Atom D), (copies A).map (fun c => c.2.data) =
      ∑ p, (((A p).map (·.data) : List D) : Multiset D) := by
    intro A
    rw [copies, show (∑ p, ((A p : Multiset (Atom D)).map (Prod.mk p))).map (fun c => c.2.data) =
      ∑ p, ((A p : Multiset (Atom D)).map (Prod.mk p)).map (fun c => c.2.data) from map_sum (Multiset.mapAddMonoidHom _) _ _]
    apply Finset.sum_congr rfl
    intro p _
    rw [Multiset.map_map, Multiset.map_coe]
    rfl
  rw [e, e]
  apply Finset.sum_congr rfl
  intro p _
  rw [h p]

theorem distinct_exchangeAtomsG (slab : Vec) (G : Proc N → PState K D) (hid : Distinct fun p => (bases G p).atoms) :
    Distinct fun q => (exchangeAtomsG slab G q).base.atoms := by
  unfold Distinct
  rw [copies_map_data _ _ fun p => (marked_exchangeAtomsG slab G p).data]
  exact distinct_exchangeAtoms slab (bases G) hid

theorem covers_exchangeAtomsG {slab : Vec} {G : Proc N → PState K D} (hs : SlabOK N slab)
    (h : WithinReach slab (bases G)) (q : Proc N) (b : Atom D) (hb : b ∈ (exchangeAtomsG slab G q).base.atoms)
    (i : Fin 3) : Covers slab i (q, b) := by
  obtain ⟨a, ha, hm⟩ := (marked_exchangeAtomsG slab G q).mem_right hb
  obtain ⟨h1, h2, h3, h4⟩ := (flags_exact hs h q a ha i).1
  unfold Covers
  dsimp only at h1 h2 h3 h4 ⊢
  rw [hm.2.1]
  exact ⟨h1, h2, fun hx => hm.2.2 _ _ (h3 hx), fun hx => hm.2.2 _ _ (h4 hx)⟩

end Verif.DdExchange
