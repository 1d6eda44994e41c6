import Verif.DdExchange.Ghosts

/-! Lemmas about updates of ghost positions and reverse updates of forces. -/

set_option autoImplicit false

namespace Verif.DdExchange

open Verif.Boundary Verif.DdChem

variable {N : Fin 3 → ℕ} {D : Type} {V : Type} [AddCommGroup V]

theorem one_source {d : Dir} (h : gridFlag N d.1 = false) (p : Proc N) : source d p = p :=
  (proc_one h p).2
theorem one_dest {d : Dir} (h : gridFlag N d.1 = false) (p : Proc N) : dest d p = p :=
  (proc_one h p).1

/-! ### Forces -/

/-- Pairs of slots: target in the send array, origin in the receive array. -/
theorem addLoop_eq (F : ℕ → V) (l : List (ℕ × ℕ)) (s : ℕ) (h1 : ∀ e ∈ l, e.1 < s)
    (h2 : ∀ e ∈ l, s ≤ e.2) : addLoop F l = addAll F (l.map fun e => (e.1, F e.2)) := by
  induction l generalizing F with
  | nil => rfl
  | cons e l ih =>
    obtain ⟨k, m⟩ := e
    rw [addLoop, ih _ (fun e he => h1 e (by simp [he])) (fun e he => h2 e (by simp [he])),
      List.map_cons, addAll]
    congr 1
    apply List.map_congr_left
    intro e he
    have hk := h1 (k, m) (by simp)
    have hm := h2 e (by simp [he])
    simp only at hk
    rw [Function.update_of_ne (by omega)]

theorem addAll_ge (F : ℕ → V) (l : List (ℕ × V)) (s : ℕ) (h1 : ∀ e ∈ l, e.1 < s) (m : ℕ)
    (hm : s ≤ m) : addAll F l m = F m := by
  induction l generalizing F with
  | nil => rfl
  | cons e l ih =>
    obtain ⟨k, v⟩ := e
    rw [addAll, ih _ (fun e he => h1 e (by simp [he]))]
    have hk := h1 (k, v) (by simp)
    simp only at hk
    rw [Function.update_of_ne (by omega)]

open Classical in
/-- Sum of the values in the slots below `s` that satisfy `P`. -/
noncomputable def wsum (P : ℕ → Prop) (s : ℕ) (F : ℕ → V) : V :=
  ∑ m ∈ Finset.range s, if P m then F m else 0

open Classical in
theorem wsum_update (P : ℕ → Prop) (s : ℕ) (F : ℕ → V) (k : ℕ) (hk : k < s) (v : V) :
    wsum P s (Function.update F k (F k + v)) = wsum P s F + if P k then v else 0 := by
  have hsplit : ∀ F : ℕ → V, wsum P s F = (if P k then F k else 0) +
      ∑ m ∈ (Finset.range s).erase k, if P m then F m else 0 := by
    intro F
    exact (Finset.add_sum_erase _ (fun m => if P m then F m else 0) (Finset.mem_range.2 hk)).symm
  rw [hsplit, hsplit F]
  have e : ∑ m ∈ (Finset.range s).erase k, (if P m then Function.update F k (F k + v) m else 0) =
      ∑ m ∈ (Finset.range s).erase k, if P m then F m else 0 := by
    apply Finset.sum_congr rfl
    intro m hm
    rw [Function.update_of_ne (Finset.ne_of_mem_erase hm)]
  rw [e, Function.update_self]
  by_cases h : P k
  · simp only [h, if_true]; abel
  · simp only [h, if_false]; abel

open Classical in
theorem wsum_addAll (P : ℕ → Prop) (s : ℕ) (F : ℕ → V) (l : List (ℕ × V)) (h : ∀ e ∈ l, e.1 < s) :
    wsum P s (addAll F l) = wsum P s F + (l.map fun e => if P e.1 then e.2 else 0).sum := by
  induction l generalizing F with
  | nil => simp [addAll]
  | cons e l ih =>
    obtain ⟨k, v⟩ := e
    rw [addAll, ih _ (fun e he => h e (by simp [he])), wsum_update _ _ _ _ (h (k, v) (by simp)),
      List.map_cons, List.sum_cons]
    abel

theorem reverseDir_eq {G : GState N D} {d : Dir} {start : Proc N → ℕ}
    (hs : ∀ p, ∀ k ∈ G.send p d, k < start p)
    (hr : ∀ q, G.recv q d = List.range' (start q) (G.send (source d q) d).length)
    (F : Proc N → ℕ → V) (p : Proc N) :
    reverseDir G d F p =
      addAll (F p) (List.zip (G.send p d) ((G.recv (dest d p) d).map (F (dest d p)))) := by
  unfold reverseDir
  cases hg : gridFlag N d.1 with
  | true => simp
  | false =>
    simp only [Bool.false_eq_true, if_false]
    rw [one_dest hg, addLoop_eq _ _ (start p)]
    · congr 1
      rw [List.zip_map_right]
      apply List.map_congr_left
      rintro ⟨k, m⟩ _
      rfl
    · rintro ⟨k, m⟩ he
      exact hs p k (List.of_mem_zip he).1
    · rintro ⟨k, m⟩ he
      have := (List.of_mem_zip he).2
      rw [hr p, List.mem_range'_1] at this
      exact this.1

/-- The slot holds a copy of the atom with data `x`. -/
def Is (G : GState N D) (x : D) (q : Proc N) (m : ℕ) : Prop := (G.atoms q)[m]?.map (·.data) = some x

open Classical in
theorem sum_zip_range (P : ℕ → Prop) (Q : ℕ → Prop) (l : List ℕ) (s : ℕ) (F : ℕ → V)
    (h : ∀ r, (hr : r < l.length) → (P l[r] ↔ Q (s + r))) :
    ((List.zip l ((List.range' s l.length).map F)).map fun e => if P e.1 then e.2 else 0).sum =
      ∑ r ∈ Finset.range l.length, if Q (s + r) then F (s + r) else 0 := by
  induction l generalizing s with
  | nil => simp
  | cons k l ih =>
    rw [List.length_cons, List.range'_succ, List.map_cons, List.zip_cons_cons, List.map_cons,
      List.sum_cons, Finset.sum_range_succ', add_comm]
    congr 1
    · rw [ih (s + 1)]
      · apply Finset.sum_congr rfl
        intro r _
        have : s + 1 + r = s + (r + 1) := by omega
        rw [this]
      · intro r hr
        have := h (r + 1) (by simp [hr])
        have e : s + 1 + r = s + (r + 1) := by omega
        rw [e]
        simpa using this
    · have := h 0 (by simp)
      simp only [List.getElem_cons_zero, add_zero] at this
      simp only [add_zero, this]

open Classical in
theorem wsum_split (P : ℕ → Prop) (s n : ℕ) (F : ℕ → V) :
    wsum P (s + n) F = wsum P s F + ∑ r ∈ Finset.range n, if P (s + r) then F (s + r) else 0 := by
  rw [wsum, Finset.sum_range_add]; rfl

theorem reverse_step {G : GState N D} {d : Dir} {ds : List Dir} {start : Proc N → ℕ}
    (hl : Linked G (d :: ds) start) (F : Proc N → ℕ → V) (x : D) :
    ∑ p, wsum (Is G x p) (start p) (reverseDir G d F p) =
      ∑ q, wsum (Is G x q) (start q + (G.send (source d q) d).length) (F q) := by
  classical
  obtain ⟨hs, hr, hle, hget, -⟩ := hl
  have h1 : ∀ p, wsum (Is G x p) (start p) (reverseDir G d F p) = wsum (Is G x p) (start p) (F p) +
      ((List.zip (G.send p d) ((G.recv (dest d p) d).map (F (dest d p)))).map
        fun e => if Is G x p e.1 then e.2 else 0).sum := by
    intro p
    rw [reverseDir_eq hs hr, wsum_addAll]
    rintro ⟨k, v⟩ he
    exact hs p k (List.of_mem_zip he).1
  simp only [h1, wsum_split, Finset.sum_add_distrib]
  congr 1
  symm
  set f : Proc N → V := fun p =>
    ((List.zip (G.send p d) ((G.recv (dest d p) d).map (F (dest d p)))).map
        fun e => if Is G x p e.1 then e.2 else 0).sum with hf
  have hq : ∀ q, (∑ r ∈ Finset.range (G.send (source d q) d).length,
      if Is G x q (start q + r) then F q (start q + r) else 0) = f (source d q) := by
    intro q
    simp only [hf, dest_source]
    rw [hr q, sum_zip_range (Is G x (source d q)) (Is G x q)]
    intro r hrl
    unfold Is
    rw [hget q r hrl, List.getElem?_eq_getElem hrl]
    simp only [Option.bind_some, Option.map_map, Function.comp_def, receive_data]
  rw [Finset.sum_congr rfl (fun q _ => hq q)]
  exact Equiv.sum_comp (sourceEquiv d) f

theorem reverse_all {G : GState N D} (ds : List Dir) (start : Proc N → ℕ)
    (hl : Linked G ds start) (F : Proc N → ℕ → V) (x : D) :
    ∑ p, wsum (Is G x p) (start p) (ds.foldr (fun d F => reverseDir G d F) F p) =
      ∑ q, wsum (Is G x q) (G.atoms q).length (F q) := by
  induction ds generalizing start with
  | nil =>
    apply Finset.sum_congr rfl
    intro q _
    rw [hl q]; rfl
  | cons d ds ih =>
    rw [List.foldr_cons, reverse_step hl, ih _ hl.2.2.2.2]

theorem reverseUpdate_foldr (G : GState N D) (F : Proc N → ℕ → V) :
    reverseUpdate G F = dirs.foldr (fun d F => reverseDir G d F) F := by
  rw [reverseUpdate, List.foldl_reverse]

/-! ### Positions -/

theorem setLoop_eq (f : V → V) (X : ℕ → V) (l : List (ℕ × ℕ)) (s : ℕ) (h1 : ∀ e ∈ l, s ≤ e.1)
    (h2 : ∀ e ∈ l, e.2 < s) : setLoop f X l = setAll X (l.map fun e => (e.1, f (X e.2))) := by
  induction l generalizing X with
  | nil => rfl
  | cons e l ih =>
    obtain ⟨m, k⟩ := e
    rw [setLoop, ih _ (fun e he => h1 e (by simp [he])) (fun e he => h2 e (by simp [he])),
      List.map_cons, setAll]
    congr 1
    apply List.map_congr_left
    intro e he
    have hm := h1 (m, k) (by simp)
    have hk := h2 e (by simp [he])
    simp only at hm
    rw [Function.update_of_ne (by omega)]

theorem setAll_lt (X : ℕ → V) (l : List (ℕ × V)) (s : ℕ) (h1 : ∀ e ∈ l, s ≤ e.1) (m : ℕ)
    (hm : m < s) : setAll X l m = X m := by
  induction l generalizing X with
  | nil => rfl
  | cons e l ih =>
    obtain ⟨k, v⟩ := e
    rw [setAll, ih _ (fun e he => h1 e (by simp [he]))]
    have hk := h1 (k, v) (by simp)
    simp only at hk
    rw [Function.update_of_ne (by omega)]

theorem setAll_range (X : ℕ → V) (s n : ℕ) (l : List V) (hn : n = l.length) (r : ℕ)
    (hr : r < l.length) : setAll X (List.zip (List.range' s n) l) (s + r) = l[r] := by
  subst hn
  induction l generalizing X s r with
  | nil => simp at hr
  | cons v l ih =>
    rw [List.length_cons, List.range'_succ, List.zip_cons_cons, setAll]
    cases r with
    | zero =>
      rw [add_zero, setAll_lt _ _ (s + 1), Function.update_self, List.getElem_cons_zero]
      · rintro ⟨k, v⟩ he
        have := (List.of_mem_zip he).1
        rw [List.mem_range'_1] at this
        exact this.1
      · omega
    | succ r =>
      have e : s + (r + 1) = s + 1 + r := by omega
      rw [e, ih _ _ _ (by simpa using hr), List.getElem_cons_succ]

/-- Shift applied to a received position. -/
def shifted (lat : Fin 3 → ℤ → V) (d : Dir) (q : Proc N) (x : V) : V :=
  if shift d q ≠ 0 then x + lat d.1 (shift d q) else x

theorem updateDir_eq {G : GState N D} {d : Dir} {start : Proc N → ℕ} (lat : Fin 3 → ℤ → V)
    (hs : ∀ p, ∀ k ∈ G.send p d, k < start p)
    (hr : ∀ q, G.recv q d = List.range' (start q) (G.send (source d q) d).length)
    (X : Proc N → ℕ → V) (q : Proc N) :
    updateDir lat G d X q = setAll (X q) (List.zip (List.range' (start q) (G.send (source d q) d).length)
      ((G.send (source d q) d).map fun k => shifted lat d q (X (source d q) k))) := by
  unfold updateDir
  cases hg : gridFlag N d.1 with
  | true =>
    simp only [if_true, hr q, List.map_map]
    rfl
  | false =>
    simp only [Bool.false_eq_true, if_false]
    rw [setLoop_eq _ _ _ (start q)]
    · rw [hr q, one_source hg, List.zip_map_right]
      congr 1
    · rintro ⟨m, k⟩ he
      have := (List.of_mem_zip he).1
      rw [hr q, List.mem_range'_1] at this
      exact this.1
    · rintro ⟨m, k⟩ he
      exact hs q k (List.of_mem_zip he).2

theorem update_old {G : GState N D} {d : Dir} {ds : List Dir} {start : Proc N → ℕ}
    (lat : Fin 3 → ℤ → V) (hl : Linked G (d :: ds) start) (X : Proc N → ℕ → V) (q : Proc N) (m : ℕ)
    (hm : m < start q) : updateDir lat G d X q m = X q m := by
  obtain ⟨hs, hr, -⟩ := hl
  rw [updateDir_eq lat hs hr, setAll_lt _ _ (start q) _ _ hm]
  rintro ⟨k, v⟩ he
  have := (List.of_mem_zip he).1
  rw [List.mem_range'_1] at this
  exact this.1

theorem update_new {G : GState N D} {d : Dir} {ds : List Dir} {start : Proc N → ℕ}
    (lat : Fin 3 → ℤ → V) (hl : Linked G (d :: ds) start) (X : Proc N → ℕ → V) (q : Proc N) (r : ℕ)
    (hr' : r < (G.send (source d q) d).length) :
    updateDir lat G d X q (start q + r) =
      shifted lat d q (X (source d q) ((G.send (source d q) d)[r])) := by
  obtain ⟨hs, hr, -⟩ := hl
  rw [updateDir_eq lat hs hr]
  rw [setAll_range (X q) (start q) _
    ((G.send (source d q) d).map fun k => shifted lat d q (X (source d q) k)) (by simp) r
    (by simpa using hr'), List.getElem_map]

theorem shifted_eq {lat : Fin 3 → ℤ → V} (h0 : ∀ i, lat i 0 = 0) (d : Dir) (q : Proc N) (x : V) :
    shifted lat d q x = x + lat d.1 (shift d q) := by
  unfold shifted
  by_cases h : shift d q = 0
  · simp [h, h0]
  · simp [h]

/-- Relation between a copy and an original atom kept by the update of positions: `X0` are the
positions of the local atoms before, `X` the present ones. -/
def Follows (lat : Fin 3 → ℤ → V) (locals : Proc N → List (Atom D)) (X0 : Proc N → ℕ → V)
    (b : Atom D) (x : V) : Prop :=
  ∃ p k a, (locals p)[k]? = some a ∧ b.data = a.data ∧
    ∃ n : Fin 3 → ℤ, (∀ i, b.pos i = a.pos i + n i) ∧ x = X0 p k + ∑ i, lat i (n i)

theorem follows_shift {lat : Fin 3 → ℤ → V} (hlat : ∀ i s t, lat i (s + t) = lat i s + lat i t)
    {locals : Proc N → List (Atom D)} {X0 : Proc N → ℕ → V} {b : Atom D} {x : V}
    (h : Follows lat locals X0 b x) (d : Dir) (s : ℤ) :
    Follows lat locals X0 (receive N d s b) (x + lat d.1 s) := by
  obtain ⟨p, k, a, ha, hd, n, hn, hx⟩ := h
  refine ⟨p, k, a, ha, by rw [receive_data, hd], Function.update n d.1 (n d.1 + s), ?_, ?_⟩
  · intro i
    rw [receive_pos]
    by_cases hi : i = d.1
    · subst hi
      rw [move_pos_self, hn, Function.update_self]; push_cast; ring
    · rw [move_pos_ne _ _ _ _ hi, hn, Function.update_of_ne hi]
  · rw [hx, add_assoc]
    congr 1
    rw [← Finset.add_sum_erase _ _ (Finset.mem_univ d.1),
      ← Finset.add_sum_erase _ (fun i => lat i (Function.update n d.1 (n d.1 + s) i))
        (Finset.mem_univ d.1)]
    simp only [Function.update_self, hlat]
    have e : ∑ i ∈ Finset.univ.erase d.1, lat i (Function.update n d.1 (n d.1 + s) i) =
        ∑ i ∈ Finset.univ.erase d.1, lat i (n i) := by
      apply Finset.sum_congr rfl
      intro i hi
      rw [Function.update_of_ne (Finset.ne_of_mem_erase hi)]
    rw [e]; abel

theorem update_all {G : GState N D} {lat : Fin 3 → ℤ → V}
    (hlat : ∀ i s t, lat i (s + t) = lat i s + lat i t) (locals : Proc N → List (Atom D))
    (X0 : Proc N → ℕ → V) (ds : List Dir) (start : Proc N → ℕ) (hl : Linked G ds start)
    (X : Proc N → ℕ → V)
    (h : ∀ q m b, m < start q → (G.atoms q)[m]? = some b → Follows lat locals X0 b (X q m)) :
    (∀ q m b, (G.atoms q)[m]? = some b →
      Follows lat locals X0 b (ds.foldl (fun X d => updateDir lat G d X) X q m)) ∧
    (∀ q m, m < start q → ds.foldl (fun X d => updateDir lat G d X) X q m = X q m) := by
  have h0 : ∀ i, lat i 0 = 0 := by
    intro i
    have := hlat i 0 0
    simpa using this
  induction ds generalizing start X with
  | nil =>
    refine ⟨?_, fun q m _ => rfl⟩
    intro q m b hb
    refine h q m b ?_ hb
    rw [hl q]
    exact (List.getElem?_eq_some_iff.1 hb).1
  | cons d ds ih =>
    have hl' := hl.2.2.2.2
    have key : ∀ q m b, m < start q + (G.send (source d q) d).length → (G.atoms q)[m]? = some b →
        Follows lat locals X0 b (updateDir lat G d X q m) := by
      intro q m b hm hb
      by_cases hlt : m < start q
      · rw [update_old lat hl X q m hlt]
        exact h q m b hlt hb
      · obtain ⟨r, rfl⟩ : ∃ r, m = start q + r := ⟨m - start q, by omega⟩
        have hr : r < (G.send (source d q) d).length := by omega
        rw [update_new lat hl X q r hr, shifted_eq h0]
        have hg := hl.2.2.2.1 q r hr
        rw [hb, List.getElem?_eq_getElem hr] at hg
        simp only [Option.bind_some] at hg
        obtain ⟨b', hb', he⟩ := Option.map_eq_some_iff.1 hg.symm
        rw [← he]
        apply follows_shift hlat
        exact h _ _ _ (hl.1 _ _ (List.getElem_mem hr)) hb'
    obtain ⟨i1, i2⟩ := ih _ hl' (updateDir lat G d X) key
    refine ⟨i1, ?_⟩
    intro q m hm
    rw [List.foldl_cons, i2 q m (by omega), update_old lat hl X q m hm]

end Verif.DdExchange
