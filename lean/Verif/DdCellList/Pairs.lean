import Verif.DdCellList.Nbr

/-! # The pair list visited by an iterator -/

set_option autoImplicit false

namespace Verif.DdCellList

open Verif.Boundary Verif.Cpp Verif.McCellList

variable {A B : Type}

/-! ### Compressed arrays -/

/-- Array `first_` for groups of pairs with a common first atom. -/
def firsts (k : ℕ) : List (B × List B) → List ℕ
  | [] => [k]
  | g :: G => k :: firsts (k + g.2.length) G

/-- Total number of pairs of a list of groups. -/
def total (G : List (B × List B)) : ℕ := (G.flatMap Prod.snd).length

theorem firsts_append (G : List (B × List B)) (g : B × List B) (k : ℕ) :
    firsts k (G ++ [g]) = firsts k G ++ [k + total G + g.2.length] := by
  induction G generalizing k with
  | nil => simp [firsts, total]
  | cons h G ih =>
    simp only [List.cons_append, firsts, ih, List.cons.injEq, true_and]
    unfold total
    simp only [List.flatMap_cons, List.length_append]
    rw [show k + h.2.length + (G.flatMap Prod.snd).length + g.2.length =
      k + (h.2.length + (G.flatMap Prod.snd).length) + g.2.length by ring]

/-- Pairs of a list of groups. -/
def ungroup (G : List (B × List B)) : List (B × B) := G.flatMap fun g => g.2.map fun b => (g.1, b)

/-- The arrays of a pair list hold the pairs `P`. -/
structure Holds (p : PL A) (P : List (Option A × Option A)) : Prop where
  ex : ∃ G : List (Option A × List (Option A)), (∀ g ∈ G, g.2 ≠ []) ∧ p.atom1 = G.map Prod.fst ∧
    p.atom2 = G.flatMap Prod.snd ∧ p.first = firsts 0 G ∧ P = ungroup G

theorem holds_empty : Holds (⟨[], [], [0]⟩ : PL A) [] :=
  ⟨[], by simp, rfl, rfl, rfl, rfl⟩

/-- Pairs of an atom with the later elements of an array. -/
def pairsFrom (near : B → B → Bool) : ℕ → List B → List (B × B)
  | 0, _ => []
  | _, [] => []
  | n + 1, a :: l => (l.filter (near a)).map (fun b => (a, b)) ++ pairsFrom near n l

theorem Holds.primary {p : PL A} {P : List (Option A × Option A)} (h : Holds p P)
    (near : Option A → Option A → Bool) (a : Option A) (l : List (Option A)) :
    Holds (primary near p a l) (P ++ (l.filter (near a)).map (fun b => (a, b))) := by
  obtain ⟨G, h1, h2, h3, h4, h5⟩ := h.ex
  unfold DdCellList.primary selected
  simp only
  by_cases e : l.filter (near a) = []
  · rw [e]
    simp only [List.isEmpty_nil, if_true, List.append_nil, List.map_nil]
    exact h
  · rw [if_neg (by simpa using e)]
    refine ⟨G ++ [(a, l.filter (near a))], ?_, ?_, ?_, ?_, ?_⟩
    · intro g hg
      rcases List.mem_append.1 hg with hg | hg
      · exact h1 g hg
      · rw [List.mem_singleton.1 hg]; exact e
    · simp [h2]
    · simp [h3]
    · simp only [firsts_append, h4, h3, List.length_append, total, Nat.zero_add]
    · simp [ungroup, h5]

theorem Holds.primaries (near : Option A → Option A → Bool) (n : ℕ) (l : List (Option A)) {p : PL A}
    {P : List (Option A × Option A)} (h : Holds p P) :
    Holds (primaries near n l p) (P ++ pairsFrom near n l) := by
  induction n generalizing l p P with
  | zero => simpa [DdCellList.primaries, pairsFrom] using h
  | succ n ih =>
    cases l with
    | nil => simpa [DdCellList.primaries, pairsFrom] using h
    | cons a l =>
      simp only [DdCellList.primaries, pairsFrom]
      rw [← List.append_assoc]
      exact ih l (h.primary near a l)

theorem Holds.check {p : PL A} {P : List (Option A × Option A)} (h : Holds p P) : p.check = .ok p := by
  obtain ⟨G, h1, h2, h3, h4, h5⟩ := h.ex
  unfold PL.check
  rw [if_neg]
  rintro ⟨h0, h | h | h⟩
  · apply h
    rw [h4, h2]
    have : ∀ (G : List (Option A × List (Option A))) k, (firsts k G).length = G.length + 1 := by
      intro G
      induction G with
      | nil => intro k; rfl
      | cons g G ih => intro k; simp [firsts, ih]
    rw [this]; simp
  · apply h
    rw [h4]
    cases G <;> rfl
  · apply h
    rw [h4, h3, h2]
    have : ∀ (G : List (Option A × List (Option A))) k, (firsts k G)[G.length]? = some (k + total G) := by
      intro G
      induction G with
      | nil => intro k; simp [firsts, total]
      | cons g G ih =>
        intro k
        simp only [firsts, List.length_cons, List.getElem?_cons_succ, ih, total, List.flatMap_cons,
          List.length_append]
        rw [Nat.add_assoc]
    rw [List.length_map, this]
    simp [total]

/-! ### Iteration -/

theorem drop_cons {α : Type} {l : List α} {n : ℕ} {x : α} {r : List α} (h : l.drop n = x :: r) :
    l[n]? = some x ∧ l.drop (n + 1) = r := by
  constructor
  · have := List.getElem?_drop (xs := l) (i := n) (j := 0)
    rw [h] at this
    simpa using this.symm
  · rw [← List.drop_drop, h]; rfl

theorem run_spec (it : Iter A) (G : List (Option A × List (Option A))) (hG : ∀ g ∈ G, g.2 ≠ [])
    (a1 a2 : ℕ) (x : Option A) (l : List (Option A)) (hl : l ≠ [])
    (h1 : it.list.atom1.drop a1 = x :: G.map Prod.fst)
    (h2 : it.list.atom2.drop a2 = l ++ G.flatMap Prod.snd)
    (h3 : it.list.first.drop (a1 + 1) = firsts (a2 + l.length) G) :
    it.run (l ++ G.flatMap Prod.snd).length a1 a2 =
      (l.map (fun b => (x, b)) ++ ungroup G).map fun p => (some p.1, some p.2) := by
  induction G generalizing a1 a2 x l with
  | nil =>
    induction l generalizing a2 with
    | nil => exact absurd rfl hl
    | cons b l ih =>
      have hb := drop_cons h2
      have ha := drop_cons h1
      have hf : it.list.first[a1 + 1]? = some (a2 + (b :: l).length) := (drop_cons (r := []) h3).1
      simp only [List.cons_append, List.length_cons, Iter.run, hb.1, ha.1, hf, List.map_cons]
      congr 1
      cases l with
      | nil => simp [Iter.run, ungroup]
      | cons b' l =>
        rw [if_neg (by simp)]
        have e : a2 + (b :: b' :: l).length = a2 + 1 + (b' :: l).length := by
          simp only [List.length_cons]; ring
        rw [e] at h3
        exact ih (a2 + 1) (by simp) hb.2 h3
  | cons g G ihG =>
    induction l generalizing a2 with
    | nil => exact absurd rfl hl
    | cons b l ih =>
      have hb := drop_cons h2
      have ha := drop_cons h1
      have hf := drop_cons (x := a2 + (b :: l).length)
        (r := firsts (a2 + (b :: l).length + g.2.length) G) h3
      simp only [List.cons_append, List.length_cons, Iter.run, hb.1, ha.1, hf.1, List.map_cons]
      congr 1
      cases l with
      | nil =>
        rw [if_pos (by simp)]
        have := ihG (fun g hg => hG g (List.mem_cons_of_mem _ hg)) (a1 + 1) (a2 + 1) g.1 g.2
          (hG g (by simp)) (by rw [ha.2]; rfl) (by rw [hb.2]; simp) (by rw [hf.2]; simp)
        simp only [List.nil_append, List.flatMap_cons, List.map_nil]
        rw [this]
        simp [ungroup]
      | cons b' l =>
        rw [if_neg (by simp)]
        have e : a2 + (b :: b' :: l).length = a2 + 1 + (b' :: l).length := by
          simp only [List.length_cons]; ring
        rw [e] at h3
        exact ih (a2 + 1) (by simp) hb.2 h3

/-- A fresh iterator visits exactly the pairs held, in order, and never reads outside an array. -/
theorem Holds.pairs {p : PL A} {P : List (Option A × Option A)} (h : Holds p P) :
    (p.begin' Iter.start).pairs = P.map fun q => (some q.1, some q.2) := by
  obtain ⟨G, h1, h2, h3, h4, h5⟩ := h.ex
  unfold PL.begin' Iter.pairs
  cases G with
  | nil =>
    simp only [h2, List.map_nil, List.length_nil, ne_eq, not_true, if_false, h5]
    rfl
  | cons g G =>
    have hne : p.atom1.length ≠ 0 := by simp [h2]
    rw [if_pos hne]
    simp only [Nat.sub_zero]
    have := run_spec ⟨p, p.atom2.length, 0, 0⟩ G (fun g hg => h1 g (List.mem_cons_of_mem _ hg)) 0 0 g.1 g.2
      (h1 g (by simp)) (by simp [h2]) (by simp [h3]) (by simp [h4, firsts])
    rw [h5]
    have e : p.atom2.length = (g.2 ++ G.flatMap Prod.snd).length := by simp [h3]
    rw [e] at this ⊢
    rw [this]
    simp [ungroup]

/-! ### The build loop -/

/-- Pairs generated for one cell. -/
def cellList (s : CL A) (reverse : Bool) (near : Option A → Option A → Bool) (ic : ℤ) :
    List (Option A × Option A) := pairsFrom near (s.cells ic).nAtom (s.nbrList reverse ic)

theorem cells_hold (s : CL A) (reverse : Bool) (cap : ℕ) (near : Option A → Option A → Bool)
    (cs : List ℤ) {p p' : PL A} {P : List (Option A × Option A)} (h : Holds p P)
    (hok : cs.foldlM (cellPairs s reverse cap near) p = .ok p') :
    Holds p' (P ++ cs.flatMap (cellList s reverse near)) := by
  induction cs generalizing p P with
  | nil =>
    simp only [List.foldlM_nil, pure, Except.pure, Except.ok.injEq] at hok
    subst hok; simpa using h
  | cons ic cs ih =>
    simp only [List.foldlM_cons, bind, Except.bind] at hok
    have key : ∀ q, cellPairs s reverse cap near p ic = .ok q → Holds q (P ++ cellList s reverse near ic) := by
      intro q hq
      unfold cellPairs at hq
      unfold cellList
      split_ifs at hq with h0
      · simp only [Except.ok.injEq] at hq
        subst hq
        rw [h0]; simpa [pairsFrom] using h
      · unfold CL.getNeighbors at hq
        split_ifs at hq with h1
        · simp only [Except.bind, Except.ok.injEq] at hq
          subst hq
          exact h.primaries near _ _
        · simp [Except.bind] at hq
    cases hq : cellPairs s reverse cap near p ic with
    | error e => rw [hq] at hok; simp at hok
    | ok q =>
      rw [hq] at hok
      have := ih (key q hq) hok
      rw [List.flatMap_cons, ← List.append_assoc]
      exact this

/-- The loop fails only if a neighbour array overflows. -/
theorem cells_ok (s : CL A) (reverse : Bool) (cap : ℕ) (near : Option A → Option A → Bool)
    (cs : List ℤ) (p : PL A)
    (hcap : ∀ ic ∈ cs, (s.nbrList reverse ic).length ≤ cap) :
    ∃ p', cs.foldlM (cellPairs s reverse cap near) p = .ok p' := by
  induction cs generalizing p with
  | nil => exact ⟨p, rfl⟩
  | cons ic cs ih =>
    simp only [List.foldlM_cons, bind, Except.bind]
    have : ∃ q, cellPairs s reverse cap near p ic = .ok q := by
      unfold cellPairs CL.getNeighbors
      rw [if_pos (hcap ic (by simp))]
      split_ifs
      · exact ⟨_, rfl⟩
      · exact ⟨_, rfl⟩
    obtain ⟨q, hq⟩ := this
    rw [hq]
    exact ih q (fun ic h => hcap ic (by simp [h]))

theorem countPrimaries_eq (n : ℕ) (l : List (Option B))
    (near' : Option B → Option B → Bool) :
    countPrimaries near' n l = (pairsFrom near' n l).length := by
  induction n generalizing l with
  | zero => simp [countPrimaries, pairsFrom]
  | succ n ih =>
    cases l with
    | nil => simp [countPrimaries, pairsFrom]
    | cons a l => simp [countPrimaries, pairsFrom, ih]

theorem count_ok (s : CL A) (reverse : Bool) (cap : ℕ) (near : Option A → Option A → Bool)
    (cs : List ℤ) (k k' : ℕ) (hok : cs.foldlM (countCell s reverse cap near) k = .ok k') :
    k' = k + (cs.flatMap (cellList s reverse near)).length := by
  induction cs generalizing k with
  | nil =>
    simp only [List.foldlM_nil, pure, Except.pure, Except.ok.injEq] at hok
    subst hok; simp
  | cons ic cs ih =>
    simp only [List.foldlM_cons, bind, Except.bind] at hok
    have key : ∀ q, countCell s reverse cap near k ic = .ok q →
        q = k + (cellList s reverse near ic).length := by
      intro q hq
      unfold countCell at hq
      unfold cellList
      split_ifs at hq with h0
      · simp only [Except.ok.injEq] at hq
        subst hq
        rw [h0]; simp [pairsFrom]
      · unfold CL.getNeighbors at hq
        split_ifs at hq with h1
        · simp only [Except.bind, Except.ok.injEq] at hq
          rw [← hq, countPrimaries_eq]
        · simp [Except.bind] at hq
    cases hq : countCell s reverse cap near k ic with
    | error e => rw [hq] at hok; simp at hok
    | ok q =>
      rw [hq] at hok
      have := ih q hok
      rw [List.flatMap_cons, List.length_append, this, key q hq]
      ring

/-- What a successful build of the pair list yields. -/
theorem buildPairList_spec {s : CL A} {reverse : Bool} {cap : ℕ} {near : Option A → Option A → Bool}
    {storageCap pairCap : ℕ} {p : PL A}
    (h : buildPairList s reverse cap near storageCap pairCap = .ok p) :
    Holds p (s.walk.flatMap (cellList s reverse near)) := by
  have key : ∀ pc, buildPairs s reverse cap near storageCap pc = .ok p →
      Holds p (s.walk.flatMap (cellList s reverse near)) := by
    intro pc hp
    unfold buildPairs at hp
    split_ifs at hp
    cases hq : s.walk.foldlM (cellPairs s reverse cap near) ⟨[], [], [0]⟩ with
    | error e => rw [hq] at hp; simp [Except.bind] at hp
    | ok q =>
      rw [hq] at hp
      have hh := cells_hold s reverse cap near s.walk holds_empty hq
      simp only [Except.bind, hh.check, Except.ok.injEq] at hp
      subst hp
      simpa using hh
  unfold buildPairList at h
  split_ifs at h
  · cases hc : countPairs s reverse cap near with
    | error e => rw [hc] at h; simp [Except.bind] at h
    | ok k => rw [hc] at h; exact key _ h
  · exact key _ h

/-! ### Membership and duplicates -/

theorem mem_pairsFrom (near : B → B → Bool) (X Y : List B) (a b : B) :
    (a, b) ∈ pairsFrom near X.length (X ++ Y) ↔
      near a b = true ∧ ((a ∈ X ∧ b ∈ Y) ∨ [a, b].Sublist X) := by
  induction X with
  | nil => simp [pairsFrom]
  | cons x X ih =>
    simp only [List.length_cons, List.cons_append, pairsFrom, List.mem_append, List.mem_map,
      List.mem_filter, Prod.mk.injEq, ih, List.mem_cons]
    constructor
    · rintro (⟨c, ⟨h1, h2⟩, rfl, rfl⟩ | ⟨h1, h2⟩)
      · refine ⟨h2, ?_⟩
        rcases h1 with h1 | h1
        · right
          exact List.Sublist.cons_cons _ (List.singleton_sublist.2 h1)
        · left; exact ⟨Or.inl rfl, h1⟩
      · refine ⟨h1, ?_⟩
        rcases h2 with h2 | h2
        · left; exact ⟨Or.inr h2.1, h2.2⟩
        · right; exact h2.cons _
    · rintro ⟨h1, h2⟩
      rcases h2 with ⟨h2 | h2, h3⟩ | h2
      · subst h2; left; exact ⟨b, ⟨Or.inr h3, h1⟩, rfl, rfl⟩
      · right; exact ⟨h1, Or.inl ⟨h2, h3⟩⟩
      · cases h2 with
        | cons _ h2 => right; exact ⟨h1, Or.inr h2⟩
        | cons_cons _ h2 =>
          left; exact ⟨b, ⟨Or.inl (List.singleton_sublist.1 h2), h1⟩, rfl, rfl⟩

theorem pairsFrom_fst (near : B → B → Bool) (n : ℕ) (l : List B) (p : B × B)
    (h : p ∈ pairsFrom near n l) : p.1 ∈ l.take n := by
  induction n generalizing l with
  | zero => simp [pairsFrom] at h
  | succ n ih =>
    cases l with
    | nil => simp [pairsFrom] at h
    | cons a l =>
      simp only [pairsFrom, List.mem_append, List.mem_map] at h
      simp only [List.take_succ_cons, List.mem_cons]
      rcases h with ⟨b, _, rfl⟩ | h
      · left; rfl
      · right; exact ih l h

theorem nodup_pairsFrom (near : B → B → Bool) (n : ℕ) (l : List B) (h : l.Nodup) :
    (pairsFrom near n l).Nodup := by
  induction n generalizing l with
  | zero => simp [pairsFrom]
  | succ n ih =>
    cases l with
    | nil => simp [pairsFrom]
    | cons a l =>
      rw [List.nodup_cons] at h
      simp only [pairsFrom]
      rw [List.nodup_append]
      refine ⟨(h.2.filter _).map (fun x y e => by simpa using e), ih l h.2, ?_⟩
      intro p hp q hq e
      subst e
      obtain ⟨b, _, rfl⟩ := List.mem_map.1 hp
      exact h.1 (List.mem_of_mem_take (pairsFrom_fst near n l _ hq))

/-- Two distinct members of a list without duplicates occur in exactly one order. -/
theorem order_total (X : List B) {a b : B} (hab : a ≠ b) (ha : a ∈ X) (hb : b ∈ X) :
    [a, b].Sublist X ∨ [b, a].Sublist X := by
  induction X with
  | nil => simp at ha
  | cons x X ih =>
    rcases List.mem_cons.1 ha with rfl | ha'
    · rcases List.mem_cons.1 hb with rfl | hb'
      · exact absurd rfl hab
      · left; exact List.Sublist.cons_cons _ (List.singleton_sublist.2 hb')
    · rcases List.mem_cons.1 hb with rfl | hb'
      · right; exact List.Sublist.cons_cons _ (List.singleton_sublist.2 ha')
      · rcases ih ha' hb' with h | h
        · left; exact h.cons _
        · right; exact h.cons _

theorem order_asymm (X : List B) (hX : X.Nodup) {a b : B} (h1 : [a, b].Sublist X)
    (h2 : [b, a].Sublist X) : False := by
  induction X with
  | nil => cases h1
  | cons x X ih =>
    rw [List.nodup_cons] at hX
    cases h1 with
    | cons _ h1 =>
      cases h2 with
      | cons _ h2 => exact ih hX.2 h1 h2
      | cons_cons _ h2 => exact hX.1 (h1.subset (by simp))
    | cons_cons _ h1 =>
      cases h2 with
      | cons _ h2 => exact hX.1 (h2.subset (by simp))
      | cons_cons _ h2 => exact hX.1 (List.singleton_sublist.1 h1)

end Verif.DdCellList
