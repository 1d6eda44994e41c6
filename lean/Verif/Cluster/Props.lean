/-
C38: clusters are the connected components of the neighbour graph.
-/
import Verif.Cluster.Model
import Mathlib.Logic.Relation
import Mathlib.Data.List.Nodup
import Mathlib.Data.List.Perm.Subperm

set_option autoImplicit false

namespace Verif.Cluster

open Verif.Cpp
open Verif.Cpp.Out

/-! ### Specification -/

/-- Two different molecules have atoms of the chosen type within the cutoff of
each other. -/
def Adj (w : World) (m m' : ℕ) : Prop :=
  m ≠ m' ∧ m ∈ w.mols ∧ m' ∈ w.mols ∧ ∃ a ∈ w.atoms m, ∃ b ∈ w.atoms m',
    w.typed a = true ∧ w.typed b = true ∧ w.close a b = true

/-- Molecules connected by a chain of neighbours. -/
def Conn (w : World) : ℕ → ℕ → Prop := Relation.ReflTransGen (Adj w)

/-- What the rest of the program guarantees: molecules have distinct indices
within the capacity; atoms know their molecule; the cell list holds atoms of the
chosen type and finds all that are within the cutoff; distances are
symmetric. -/
structure Good (w : World) : Prop where
  nodup : w.mols.Nodup
  lt : ∀ m ∈ w.mols, m < w.cap
  owner : ∀ m ∈ w.mols, ∀ a ∈ w.atoms m, w.molOf a = m
  listed : ∀ m ∈ w.mols, ∀ a ∈ w.atoms m, w.typed a = true → ∀ b ∈ w.near a,
    w.molOf b ∈ w.mols ∧ b ∈ w.atoms (w.molOf b) ∧ w.typed b = true
  complete : ∀ m ∈ w.mols, ∀ m' ∈ w.mols, ∀ a ∈ w.atoms m, ∀ b ∈ w.atoms m',
    w.typed a = true → w.typed b = true → w.close a b = true → b ∈ w.near a
  symm : ∀ m ∈ w.mols, ∀ m' ∈ w.mols, ∀ a ∈ w.atoms m, ∀ b ∈ w.atoms m',
    w.close a b = true → w.close b a = true

section
variable {w : World}

theorem Adj.symm (hw : Good w) {m m' : ℕ} (h : Adj w m m') : Adj w m' m := by
  obtain ⟨hne, hm, hm', a, ha, b, hb, ta, tb, hc⟩ := h
  exact ⟨Ne.symm hne, hm', hm, b, hb, a, ha, tb, ta, hw.symm m hm m' hm' a ha b hb hc⟩

theorem Conn.symm (hw : Good w) {m m' : ℕ} (h : Conn w m m') : Conn w m' m := by
  induction h with
  | refl => exact Relation.ReflTransGen.refl
  | tail _ h2 ih => exact Relation.ReflTransGen.head (h2.symm hw) ih

/-! ### The molecules visited from one molecule -/

/-- Molecules passed to `visit` while molecule `m` is processed. -/
def nbrs (w : World) (m : ℕ) : List ℕ :=
  (w.atoms m).flatMap fun a =>
    if w.typed a = true then
      ((w.near a).filter fun b => decide (w.molOf b ≠ m ∧ w.close a b = true)).map w.molOf
    else []

theorem neighbor_loop (w : World) (m a : ℕ) (l : List ℕ) (s : State) :
    loop (neighborStep w m a) l s = loop (visit w)
      ((l.filter fun b => decide (w.molOf b ≠ m ∧ w.close a b = true)).map w.molOf) s := by
  induction l generalizing s with
  | nil => rfl
  | cons b l ih =>
    rw [loop_cons]
    unfold neighborStep
    by_cases hb : w.molOf b ≠ m ∧ w.close a b = true
    · rw [if_pos hb, List.filter_cons_of_pos (by simpa using hb), List.map_cons, loop_cons]
      congr 1
      funext s'
      exact ih s'
    · rw [if_neg hb, List.filter_cons_of_neg (by simpa using hb), ok_bind]
      exact ih s

theorem atom_loop (w : World) (m : ℕ) (l : List ℕ) (s : State) :
    loop (atomStep w m) l s = loop (visit w) (l.flatMap fun a =>
      if w.typed a = true then
        ((w.near a).filter fun b => decide (w.molOf b ≠ m ∧ w.close a b = true)).map w.molOf
      else []) s := by
  induction l generalizing s with
  | nil => rfl
  | cons a l ih =>
    rw [loop_cons, List.flatMap_cons, loop_append]
    have e : atomStep w m s a = loop (visit w) (if w.typed a = true then
        ((w.near a).filter fun b => decide (w.molOf b ≠ m ∧ w.close a b = true)).map w.molOf
        else []) s := by
      unfold atomStep
      split
      · rw [neighbor_loop]
      · rfl
    rw [e]
    congr 1
    funext s'
    exact ih s'

theorem mem_nbrs (hw : Good w) {m : ℕ} (hm : m ∈ w.mols) (j : ℕ) : j ∈ nbrs w m ↔ Adj w m j := by
  unfold nbrs
  rw [List.mem_flatMap]
  constructor
  · rintro ⟨a, ha, hj⟩
    split at hj
    · rename_i ht
      rw [List.mem_map] at hj
      obtain ⟨b, hb, rfl⟩ := hj
      rw [List.mem_filter] at hb
      obtain ⟨hb, hc⟩ := hb
      simp only [decide_eq_true_eq] at hc
      obtain ⟨h1, h2, h3⟩ := hw.listed m hm a ha ht b hb
      exact ⟨Ne.symm hc.1, hm, h1, a, ha, b, h2, ht, h3, hc.2⟩
    · simp at hj
  · rintro ⟨hne, -, hj, a, ha, b, hb, ta, tb, hc⟩
    refine ⟨a, ha, ?_⟩
    rw [if_pos ta, List.mem_map]
    have ho := hw.owner j hj b hb
    refine ⟨b, ?_, ho⟩
    rw [List.mem_filter]
    refine ⟨hw.complete m hm j hj a ha b hb ta tb hc, ?_⟩
    simp only [decide_eq_true_eq]
    exact ⟨by rw [ho]; exact Ne.symm hne, hc⟩

/-! ### Invariant of the flood fill -/

/-- The linked list of pointers runs through `l`. -/
def Chain (links : ℕ → Link) : List ℕ → Prop
  | [] => True
  | i :: l => (links i).next = l.head? ∧ Chain links l

theorem Chain.congr {f g : ℕ → Link} {l : List ℕ} (h : Chain f l) (e : ∀ i ∈ l, g i = f i) :
    Chain g l := by
  induction l with
  | nil => trivial
  | cons i l ih =>
    refine ⟨?_, ih h.2 fun j hj => e j (List.mem_cons_of_mem _ hj)⟩
    rw [e i (List.mem_cons_self ..)]
    exact h.1

/-- `L` are the members of the cluster found so far, starting from `root`;
`old` are the links before the cluster was started; neighbours of members
outside `open_` have been added. -/
structure Fl (w : World) (old : ℕ → Link) (k root : ℕ) (open_ : List ℕ) (s : State) (L : List ℕ) :
    Prop where
  cl : s.clus = ⟨k, L.length, L.head?⟩
  cid : ∀ i, (s.links i).cid = if i ∈ L then some k else (old i).cid
  mol : ∀ i, (s.links i).mol = decide (i ∈ w.mols)
  chain : Chain s.links L
  same : ∀ i ∉ L, s.links i = old i
  nodup : L.Nodup
  sub : ∀ i ∈ L, i ∈ w.mols ∧ (old i).cid = none
  stack : ∀ i ∈ s.stack, i ∈ L
  reach : ∀ i ∈ L, Conn w root i
  closed : ∀ i ∈ L, i ∉ s.stack → i ∉ open_ → ∀ j, Adj w i j → j ∈ L

/-- Earlier clusters are closed under adjacency, and the number `k` is not
used. -/
structure Old (w : World) (old : ℕ → Link) (k : ℕ) : Prop where
  fresh : ∀ i, (old i).cid ≠ some k
  closed : ∀ i j, Adj w i j → (old i).cid ≠ none → (old j).cid ≠ none
  mol : ∀ i, (old i).mol = decide (i ∈ w.mols)

theorem Fl.add {old : ℕ → Link} {k root : ℕ} {op : List ℕ} {s : State} {L : List ℕ}
    (h : Fl w old k root op s L) {j : ℕ} (hj : j ∈ w.mols) (hold : (old j).cid = none) (hn : j ∉ L)
    (hc : Conn w root j) : Fl w old k root op (s.add j) (j :: L) := by
  have hup : ∀ i, i ≠ j → (s.add j).links i = s.links i := fun i hi => by
    simp only [State.add, Function.update_of_ne hi]
  have hself : (s.add j).links j = { s.links j with cid := some k, next := L.head? } := by
    simp only [State.add, Function.update_self, h.cl]
  refine ⟨?_, ?_, ?_, ⟨?_, ?_⟩, ?_, List.nodup_cons.mpr ⟨hn, h.nodup⟩, ?_, ?_, ?_, ?_⟩
  · simp [State.add, h.cl]
  · intro i
    by_cases hi : i = j
    · subst hi; rw [hself, if_pos (List.mem_cons_self ..)]
    · rw [hup i hi, h.cid]; simp [hi]
  · intro i
    by_cases hi : i = j
    · subst hi; rw [hself]; exact h.mol i
    · rw [hup i hi]; exact h.mol i
  · rw [hself]
  · exact h.chain.congr fun i hi => hup i fun e => hn (e ▸ hi)
  · intro i hi
    rw [List.mem_cons, not_or] at hi
    rw [hup i hi.1]
    exact h.same i hi.2
  · intro i hi
    rcases List.mem_cons.mp hi with rfl | hi
    · exact ⟨hj, hold⟩
    · exact h.sub i hi
  · intro i hi
    simp only [State.add] at hi
    rcases List.mem_cons.mp hi with rfl | hi
    · exact List.mem_cons_self ..
    · exact List.mem_cons_of_mem _ (h.stack i hi)
  · intro i hi
    rcases List.mem_cons.mp hi with rfl | hi
    · exact hc
    · exact h.reach i hi
  · intro i hi hs ho x hx
    simp only [State.add, List.mem_cons, not_or] at hs
    rcases List.mem_cons.mp hi with rfl | hi
    · exact absurd rfl hs.1
    · exact List.mem_cons_of_mem _ (h.closed i hi hs.2 ho x hx)

theorem visit_loop (hw : Good w) {old : ℕ → Link} {k root : ℕ} (ho : Old w old k) {m : ℕ}
    (l : List ℕ) (hl : ∀ j ∈ l, Adj w m j) (s : State) (L : List ℕ)
    (h : Fl w old k root [m] s L) (hm : m ∈ L) :
    ∃ s' L', loop (visit w) l s = ok s' ∧ Fl w old k root [m] s' L' ∧ (∀ i ∈ L, i ∈ L') ∧
      (∀ j ∈ l, j ∈ L') ∧ L'.length + s.stack.length = L.length + s'.stack.length := by
  induction l generalizing s L with
  | nil => exact ⟨s, L, rfl, h, fun _ hi => hi, by simp, rfl⟩
  | cons j l ih =>
    have hadj := hl j (List.mem_cons_self ..)
    have hjm : j ∈ w.mols := hadj.2.2.1
    have holdj : (old j).cid = none := by
      by_contra hc
      exact ho.closed j m (hadj.symm hw) hc (h.sub m hm).2
    rw [loop_cons]
    unfold visit
    rw [if_pos ⟨hw.lt j hjm, by rw [h.mol]; simpa using hjm⟩]
    by_cases hj : j ∈ L
    · rw [h.cid, if_pos hj]
      simp only [h.cl, if_true, ok_bind]
      obtain ⟨s', L', e, hF, hsub, hlm, hlen⟩ := ih (fun x hx => hl x (List.mem_cons_of_mem _ hx)) s L h hm
      refine ⟨s', L', e, hF, hsub, ?_, hlen⟩
      intro x hx
      rcases List.mem_cons.mp hx with rfl | hx
      · exact hsub x hj
      · exact hlm x hx
    · rw [h.cid, if_neg hj, holdj]
      simp only [ok_bind]
      have hF := h.add hjm holdj hj ((h.reach m hm).tail hadj)
      obtain ⟨s', L', e, hF', hsub, hlm, hlen⟩ := ih (fun x hx => hl x (List.mem_cons_of_mem _ hx))
        (s.add j) (j :: L) hF (List.mem_cons_of_mem _ hm)
      refine ⟨s', L', e, hF', fun i hi => hsub i (List.mem_cons_of_mem _ hi), ?_, ?_⟩
      · intro x hx
        rcases List.mem_cons.mp hx with rfl | hx
        · exact hsub x (List.mem_cons_self ..)
        · exact hlm x hx
      · simp only [State.add, List.length_cons] at hlen
        omega

theorem flood_ok (hw : Good w) {old : ℕ → Link} {k root : ℕ} (ho : Old w old k) (n : ℕ) (s : State)
    (L : List ℕ) (h : Fl w old k root [] s L)
    (hn : w.mols.length + s.stack.length ≤ n + L.length) :
    ∃ s' L', flood w n s = some (ok s') ∧ s'.stack = [] ∧ Fl w old k root [] s' L' ∧
      (∀ i ∈ L, i ∈ L') := by
  have hlen : ∀ M : List ℕ, M.Nodup → (∀ i ∈ M, i ∈ w.mols) → M.length ≤ w.mols.length :=
    fun M h1 h2 => (h1.subperm h2).length_le
  induction n generalizing s L with
  | zero =>
    have h1 := hlen L h.nodup fun i hi => (h.sub i hi).1
    have : s.stack = [] := by
      rw [← List.length_eq_zero_iff]; omega
    exact ⟨s, L, by simp [flood, this], this, h, fun _ hi => hi⟩
  | succ n ih =>
    unfold flood
    cases hs : s.stack with
    | nil => exact ⟨s, L, rfl, hs, h, fun _ hi => hi⟩
    | cons m rest =>
      have hm : m ∈ L := h.stack m (by rw [hs]; exact List.mem_cons_self ..)
      have hmm := (h.sub m hm).1
      have hF : Fl w old k root [m] { s with stack := rest } L := by
        refine ⟨h.cl, h.cid, h.mol, h.chain, h.same, h.nodup, h.sub, ?_, h.reach, ?_⟩
        · intro i hi; exact h.stack i (by rw [hs]; exact List.mem_cons_of_mem _ hi)
        · intro i hi h1 h2
          refine h.closed i hi ?_ (by simp)
          rw [hs, List.mem_cons, not_or]
          exact ⟨by simpa using h2, h1⟩
      obtain ⟨s', L', e, hF', hsub, hall, hcount⟩ := visit_loop hw ho (nbrs w m)
        (fun j hj => (mem_nbrs hw hmm j).mp hj) _ L hF hm
      have hp : process w { s with stack := rest } m = ok s' := by
        unfold process
        rw [require_true (by simp only [h.mol]; simpa using hmm), ok_bind,
          check_true (by simp only [h.cid, if_pos hm, h.cl]), ok_bind, atom_loop]
        exact e
      have hF2 : Fl w old k root [] s' L' := by
        refine { hF' with closed := ?_ }
        intro i hi h1 _ j hj
        by_cases him : i = m
        · subst him; exact hall j ((mem_nbrs hw hmm j).mpr hj)
        · exact hF'.closed i hi h1 (by simpa using him) j hj
      simp only [hp]
      have hb : w.mols.length + s'.stack.length ≤ n + L'.length := by
        rw [hs] at hn
        simp only [List.length_cons] at hn hcount
        omega
      obtain ⟨s2, L2, e2, h2, hF3, hsub2⟩ := ih s' L' hF2 hb
      exact ⟨s2, L2, e2, h2, hF3, fun i hi => hsub2 i (hsub i hi)⟩

/-! ### All clusters -/

/-- `Ms` are the members of the clusters found so far. -/
structure Ri (w : World) (r : Result) (Ms : List (List ℕ)) : Prop where
  len : r.clusters.length = Ms.length
  cl : ∀ k M, Ms[k]? = some M → r.clusters[k]? = some (Clus.mk k M.length M.head?)
  chain : ∀ M ∈ Ms, Chain r.links M
  nodup : ∀ M ∈ Ms, M.Nodup
  ne : ∀ M ∈ Ms, M ≠ []
  sub : ∀ M ∈ Ms, ∀ i ∈ M, i ∈ w.mols
  cid : ∀ i k, (r.links i).cid = some k ↔ ∃ M, Ms[k]? = some M ∧ i ∈ M
  mol : ∀ i, (r.links i).mol = decide (i ∈ w.mols)
  conn : ∀ M ∈ Ms, ∀ i ∈ M, ∀ j ∈ M, Conn w i j
  closed : ∀ M ∈ Ms, ∀ i ∈ M, ∀ j, Adj w i j → j ∈ M

theorem Ri.old {r : Result} {Ms : List (List ℕ)} (h : Ri w r Ms) : Old w r.links r.clusters.length := by
  refine ⟨?_, ?_, h.mol⟩
  · intro i hc
    obtain ⟨M, hM, -⟩ := (h.cid i _).mp hc
    rw [h.len, List.getElem?_eq_none (Nat.le_refl _)] at hM
    cases hM
  · intro i j hij hi
    obtain ⟨k, hk⟩ := Option.ne_none_iff_exists'.mp hi
    obtain ⟨M, hM, hiM⟩ := (h.cid i k).mp hk
    have := (h.cid j k).mpr ⟨M, hM, h.closed M (List.mem_of_getElem? hM) i hiM j hij⟩
    rw [this]; simp

theorem molStep_ok (hw : Good w) {n : ℕ} (hn : w.mols.length ≤ n) {r : Result} {Ms : List (List ℕ)}
    (h : Ri w r Ms) {m : ℕ} (hm : m ∈ w.mols) :
    ∃ r' Ms', molStep w n r m = some (ok r') ∧ Ri w r' Ms' ∧ (r'.links m).cid ≠ none ∧
      ∀ i, (r.links i).cid ≠ none → (r'.links i).cid ≠ none := by
  unfold molStep
  rw [if_pos (by rw [h.mol]; simpa using hm)]
  by_cases hc : (r.links m).cid = none
  swap
  · rw [if_neg hc]; exact ⟨r, Ms, rfl, h, hc, fun _ hi => hi⟩
  rw [if_pos hc]
  have ho := h.old
  set k := r.clusters.length with hk
  have hF0 : Fl w r.links k m [] ⟨r.links, ⟨k, 0, none⟩, []⟩ [] :=
    ⟨rfl, by simp, h.mol, trivial, fun _ _ => rfl, List.nodup_nil, by simp, by simp, by simp, by simp⟩
  have hF1 := hF0.add hm hc (by simp) Relation.ReflTransGen.refl
  obtain ⟨s, L, e, hst, hF, hsub⟩ := flood_ok hw ho n _ _ hF1 (by
    simp only [State.add, List.length_cons, List.length_nil]; omega)
  rw [e]
  have hmL : m ∈ L := hsub m (by simp)
  have hnotM : ∀ M ∈ Ms, ∀ i ∈ M, i ∉ L := by
    intro M hM i hi hiL
    obtain ⟨j, hj⟩ := List.mem_iff_getElem?.mp hM
    have := (h.cid i j).mpr ⟨M, hj, hi⟩
    rw [(hF.sub i hiL).2] at this
    cases this
  refine ⟨_, Ms ++ [L], rfl, ?_, ?_, ?_⟩
  · have hgetL : ∀ j M, (Ms ++ [L])[j]? = some M ↔ Ms[j]? = some M ∨ (j = Ms.length ∧ M = L) := by
      intro j M
      rw [List.getElem?_append]
      split
      · rename_i hj
        constructor
        · exact Or.inl
        · rintro (h1 | ⟨h1, -⟩)
          · exact h1
          · omega
      · rename_i hj
        rw [List.getElem?_eq_none (by omega : Ms.length ≤ j)]
        by_cases hj' : j = Ms.length
        · subst hj'; simp [eq_comm]
        · rw [List.getElem?_eq_none (by simp; omega)]; simp [hj']
    refine ⟨by simp [h.len], ?_, ?_, ?_, ?_, ?_, ?_, hF.mol, ?_, ?_⟩
    · intro j M hj
      simp only []
      rcases (hgetL j M).mp hj with hj | ⟨rfl, rfl⟩
      · rw [List.getElem?_append_left (by rw [h.len]; exact (List.getElem?_eq_some_iff.mp hj).1)]
        exact h.cl j M hj
      · rw [← h.len, List.getElem?_append_right (Nat.le_refl _), hF.cl]
        simp [hk]
    · intro M hM
      rcases List.mem_append.mp hM with hM | hM
      · exact (h.chain M hM).congr fun i hi => hF.same i (hnotM M hM i hi)
      · simp only [List.mem_singleton] at hM; rw [hM]; exact hF.chain
    · intro M hM
      rcases List.mem_append.mp hM with hM | hM
      · exact h.nodup M hM
      · simp only [List.mem_singleton] at hM; rw [hM]; exact hF.nodup
    · intro M hM
      rcases List.mem_append.mp hM with hM | hM
      · exact h.ne M hM
      · simp only [List.mem_singleton] at hM
        rw [hM]; exact List.ne_nil_of_mem hmL
    · intro M hM
      rcases List.mem_append.mp hM with hM | hM
      · exact h.sub M hM
      · simp only [List.mem_singleton] at hM
        rw [hM]; exact fun i hi => (hF.sub i hi).1
    · intro i j
      simp only [hF.cid]
      by_cases hi : i ∈ L
      · rw [if_pos hi]
        constructor
        · intro e
          have : k = j := by simpa using e
          exact ⟨L, (hgetL j L).mpr (Or.inr ⟨by rw [← this, hk, h.len], rfl⟩), hi⟩
        · rintro ⟨M, hM, hiM⟩
          rcases (hgetL j M).mp hM with hM | ⟨h1, -⟩
          · exact absurd hi (hnotM M (List.mem_of_getElem? hM) i hiM)
          · rw [h1, hk, h.len]
      · rw [if_neg hi, h.cid]
        constructor
        · rintro ⟨M, hM, hiM⟩; exact ⟨M, (hgetL j M).mpr (Or.inl hM), hiM⟩
        · rintro ⟨M, hM, hiM⟩
          rcases (hgetL j M).mp hM with hM | ⟨-, h2⟩
          · exact ⟨M, hM, hiM⟩
          · rw [h2] at hiM; exact absurd hiM hi
    · intro M hM
      rcases List.mem_append.mp hM with hM | hM
      · exact h.conn M hM
      · simp only [List.mem_singleton] at hM
        rw [hM]
        intro i hi j hj
        exact ((hF.reach i hi).symm hw).trans (hF.reach j hj)
    · intro M hM
      rcases List.mem_append.mp hM with hM | hM
      · exact h.closed M hM
      · simp only [List.mem_singleton] at hM
        rw [hM]
        intro i hi j hj
        exact hF.closed i hi (by rw [hst]; simp) (by simp) j hj
  · simp only [hF.cid, if_pos hmL]; simp
  · intro i hi
    simp only [hF.cid]
    split
    · simp
    · exact hi

theorem molLoop_ok (hw : Good w) {n : ℕ} (hn : w.mols.length ≤ n) (l : List ℕ)
    (hl : ∀ m ∈ l, m ∈ w.mols) {r : Result} {Ms : List (List ℕ)} (h : Ri w r Ms) :
    ∃ r' Ms', molLoop w n l r = some (ok r') ∧ Ri w r' Ms' ∧ (∀ m ∈ l, (r'.links m).cid ≠ none) ∧
      ∀ i, (r.links i).cid ≠ none → (r'.links i).cid ≠ none := by
  induction l generalizing r Ms with
  | nil => exact ⟨r, Ms, rfl, h, by simp, fun _ hi => hi⟩
  | cons m l ih =>
    obtain ⟨r1, M1, e1, h1, hm1, hk1⟩ := molStep_ok hw hn h (hl m (List.mem_cons_self ..))
    obtain ⟨r2, M2, e2, h2, hm2, hk2⟩ := ih (fun x hx => hl x (List.mem_cons_of_mem _ hx)) h1
    refine ⟨r2, M2, ?_, h2, ?_, fun i hi => hk2 i (hk1 i hi)⟩
    · simp only [molLoop, e1, e2]
    · intro x hx
      rcases List.mem_cons.mp hx with rfl | hx
      · exact hk2 x hm1
      · exact hm2 x hx

theorem identify_ok (hw : Good w) {n : ℕ} (hn : w.mols.length ≤ n) :
    ∃ r Ms, identify w n = some (ok r) ∧ Ri w r Ms ∧ ∀ m ∈ w.mols, (r.links m).cid ≠ none := by
  have h0 : Ri w ⟨initLinks w, []⟩ [] := by
    refine ⟨rfl, by simp, by simp, by simp, by simp, by simp, ?_, ?_, by simp, by simp⟩
    · intro i k; simp [initLinks, Link.null]
    · intro i; rfl
  obtain ⟨r, Ms, e, h, hm, -⟩ := molLoop_ok hw hn w.mols (fun _ hm => hm) h0
  exact ⟨r, Ms, e, h, hm⟩

theorem walk_chain {links : ℕ → Link} {l : List ℕ} (h : Chain links l) {n : ℕ} (hn : l.length ≤ n) :
    walk links n l.head? = l := by
  induction l generalizing n with
  | nil => cases n <;> rfl
  | cons i l ih =>
    cases n with
    | zero => simp at hn
    | succ n =>
      simp only [List.head?_cons, walk]
      rw [h.1, ih h.2 (by simpa using hn)]

theorem clusterCount_chain {links : ℕ → Link} {c : Clus} {l : List ℕ} (h : Chain links l)
    (hc : ∀ i ∈ l, (links i).cid = some c.id) {n : ℕ} (hn : l.length ≤ n) :
    clusterCount links c n l.head? = some l.length := by
  induction l generalizing n with
  | nil => cases n <;> rfl
  | cons i l ih =>
    cases n with
    | zero => simp at hn
    | succ n =>
      simp only [List.head?_cons, clusterCount]
      rw [if_pos (hc i (List.mem_cons_self ..)), h.1,
        ih h.2 (fun j hj => hc j (List.mem_cons_of_mem _ hj)) (by simpa using hn)]
      simp

/-! ### The property -/

/-- **C38.** Identification of clusters terminates without an exception and
without undefined behaviour.  Cluster `k` has the identifier `k`; its linked
list holds distinct molecules of the species, as many as its size says, and at
least one; every molecule is in exactly one cluster, the one its link names;
and two molecules are in the same cluster exactly if they are connected by a
chain of neighbours. -/
theorem C38_components (hw : Good w) {n : ℕ} (hn : w.mols.length ≤ n) :
    ∃ r, identify w n = some (ok r) ∧
      (∀ k c, r.clusters[k]? = some c → c.id = k ∧ 0 < c.size ∧
        (walk r.links n c.head).length = c.size ∧ (walk r.links n c.head).Nodup ∧
        ∀ m, m ∈ walk r.links n c.head ↔ m ∈ w.mols ∧ (r.links m).cid = some k) ∧
      (∀ m ∈ w.mols, ∃ k < r.clusters.length, (r.links m).cid = some k) ∧
      (∀ m ∈ w.mols, ∀ m' ∈ w.mols, (r.links m).cid = (r.links m').cid ↔ Conn w m m') := by
  obtain ⟨r, Ms, e, h, hall⟩ := identify_ok hw hn
  have hlen : ∀ M ∈ Ms, M.length ≤ n := fun M hM =>
    Nat.le_trans ((h.nodup M hM).subperm (h.sub M hM)).length_le hn
  have hcl : ∀ k c, r.clusters[k]? = some c → ∃ M, Ms[k]? = some M ∧ c = Clus.mk k M.length M.head? := by
    intro k c hc
    have hk := (List.getElem?_eq_some_iff.mp hc).1
    rw [h.len] at hk
    refine ⟨Ms[k], List.getElem?_eq_getElem hk, ?_⟩
    have := h.cl k Ms[k] (List.getElem?_eq_getElem hk)
    rw [this] at hc
    exact (Option.some.inj hc).symm
  refine ⟨r, e, ?_, ?_, ?_⟩
  · intro k c hc
    obtain ⟨M, hM, rfl⟩ := hcl k c hc
    have hMm := List.mem_of_getElem? hM
    simp only [walk_chain (h.chain M hMm) (hlen M hMm)]
    refine ⟨trivial, List.length_pos_of_ne_nil (h.ne M hMm), trivial, h.nodup M hMm, fun m => ?_⟩
    constructor
    · intro hm; exact ⟨h.sub M hMm m hm, (h.cid m k).mpr ⟨M, hM, hm⟩⟩
    · rintro ⟨-, hm⟩
      obtain ⟨M', hM', hm'⟩ := (h.cid m k).mp hm
      rw [hM] at hM'
      rw [Option.some.inj hM']; exact hm'
  · intro m hm
    obtain ⟨k, hk⟩ := Option.ne_none_iff_exists'.mp (hall m hm)
    obtain ⟨M, hM, -⟩ := (h.cid m k).mp hk
    exact ⟨k, by rw [h.len]; exact (List.getElem?_eq_some_iff.mp hM).1, hk⟩
  · intro m hm m' hm'
    obtain ⟨k, hk⟩ := Option.ne_none_iff_exists'.mp (hall m hm)
    obtain ⟨M, hM, hmM⟩ := (h.cid m k).mp hk
    have hMm := List.mem_of_getElem? hM
    constructor
    · intro he
      rw [hk] at he
      obtain ⟨M', hM', hm'M⟩ := (h.cid m' k).mp he.symm
      rw [hM] at hM'
      obtain rfl := Option.some.inj hM'
      exact h.conn M hMm m hmM m' hm'M
    · intro hc
      have : m' ∈ M := by
        clear hm'
        induction hc with
        | refl => exact hmM
        | tail _ h2 ih => exact h.closed M hMm _ ih _ h2
      rw [hk, (h.cid m' k).mpr ⟨M, hM, this⟩]

/-- **C38.** The check at the end of identification never fails. -/
theorem C38_isValid (hw : Good w) {n : ℕ} (hn : w.mols.length ≤ n) :
    ∃ r, identify w n = some (ok r) ∧ isValid w r n = ok () := by
  obtain ⟨r, Ms, e, h, hall⟩ := identify_ok hw hn
  have hlen : ∀ M ∈ Ms, M.length ≤ n := fun M hM =>
    Nat.le_trans ((h.nodup M hM).subperm (h.sub M hM)).length_le hn
  have hcls : r.clusters.map Clus.size = Ms.map List.length := by
    apply List.ext_getElem?
    intro k
    rw [List.getElem?_map, List.getElem?_map]
    by_cases hk : k < Ms.length
    · rw [h.cl k Ms[k] (List.getElem?_eq_getElem hk), List.getElem?_eq_getElem hk]; rfl
    · rw [List.getElem?_eq_none (by rw [h.len]; omega), List.getElem?_eq_none (by omega)]; rfl
  have hperm : Ms.flatten.Perm w.mols := by
    rw [List.perm_ext_iff_of_nodup _ hw.nodup]
    · intro m
      rw [List.mem_flatten]
      constructor
      · rintro ⟨M, hM, hm⟩; exact h.sub M hM m hm
      · intro hm
        obtain ⟨k, hk⟩ := Option.ne_none_iff_exists'.mp (hall m hm)
        obtain ⟨M, hM, hmM⟩ := (h.cid m k).mp hk
        exact ⟨M, List.mem_of_getElem? hM, hmM⟩
    · rw [List.nodup_flatten]
      refine ⟨h.nodup, ?_⟩
      rw [List.pairwise_iff_getElem]
      intro i j hi hj hij x hx hx'
      have h1 := (h.cid x i).mpr ⟨_, List.getElem?_eq_getElem hi, hx⟩
      rw [(h.cid x j).mpr ⟨_, List.getElem?_eq_getElem hj, hx'⟩] at h1
      have := Option.some.inj h1
      omega
  refine ⟨r, e, ?_⟩
  unfold isValid
  rw [check_true, ok_bind, check_true, ok_bind, loop_unit_ok]
  · intro m hm
    rw [check_true]
    exact ⟨by rw [h.mol]; simpa using hm, hall m hm⟩
  · rw [hcls, ← List.length_flatten, hperm.length_eq]
  · intro c hc
    obtain ⟨k, hk⟩ := List.mem_iff_getElem?.mp hc
    have hkl := (List.getElem?_eq_some_iff.mp hk).1
    rw [h.len] at hkl
    have hM := List.getElem?_eq_getElem hkl
    have hMm := List.getElem_mem hkl
    rw [h.cl k _ hM] at hk
    obtain rfl := Option.some.inj hk
    exact clusterCount_chain (h.chain _ hMm) (fun i hi => (h.cid i k).mpr ⟨_, hM, hi⟩) (hlen _ hMm)

theorem flood_mono {n n' : ℕ} (hn : n ≤ n') (s : State) (x : Out State)
    (h : flood w n s = some x) : flood w n' s = some x := by
  induction n generalizing n' s with
  | zero =>
    unfold flood at h
    split at h
    · rename_i hs
      cases n' with
      | zero => simpa [flood, hs] using h
      | succ n' => unfold flood; rw [hs]; exact h
    · cases h
  | succ n ih =>
    cases n' with
    | zero => omega
    | succ n' =>
      unfold flood at h ⊢
      cases hs : s.stack with
      | nil => rw [hs] at h; exact h
      | cons m rest =>
        rw [hs] at h
        simp only [] at h ⊢
        cases hp : process w { s with stack := rest } m with
        | ok s' => rw [hp] at h; exact ih (by omega) s' h
        | throw => rw [hp] at h; exact h
        | ub => rw [hp] at h; exact h

theorem molStep_mono {n n' : ℕ} (hn : n ≤ n') (r : Result) (m : ℕ) (x : Out Result)
    (h : molStep w n r m = some x) : molStep w n' r m = some x := by
  unfold molStep at h ⊢
  split
  · rename_i h1
    rw [if_pos h1] at h
    split
    · rename_i h2
      rw [if_pos h2] at h
      cases hf : flood w n (State.add ⟨r.links, ⟨r.clusters.length, 0, none⟩, []⟩ m) with
      | none => rw [hf] at h; cases h
      | some y => rw [hf] at h; rw [flood_mono hn _ _ hf]; exact h
    · rename_i h2
      rw [if_neg h2] at h; exact h
  · rename_i h1
    rw [if_neg h1] at h; exact h

theorem molLoop_mono {n n' : ℕ} (hn : n ≤ n') (l : List ℕ) (r : Result) (x : Out Result)
    (h : molLoop w n l r = some x) : molLoop w n' l r = some x := by
  induction l generalizing r with
  | nil => exact h
  | cons m l ih =>
    unfold molLoop at h ⊢
    cases hs : molStep w n r m with
    | none => rw [hs] at h; cases h
    | some y =>
      rw [hs] at h
      rw [molStep_mono hn _ _ _ hs]
      cases y with
      | ok r' => exact ih r' h
      | throw => exact h
      | ub => exact h

/-- **C38.** The bound on the number of iterations of the model does not affect
the result: the loops of the program end by themselves. -/
theorem C38_bound (hw : Good w) {n n' : ℕ} (hn : w.mols.length ≤ n) (hn' : n ≤ n') :
    identify w n' = identify w n := by
  obtain ⟨r, -, e, -⟩ := identify_ok hw hn
  rw [e]
  exact molLoop_mono hn' _ _ _ e

end

/-! ### Non-vacuity -/

/-- Four molecules with one atom each on a line at 0, 2, 1 and 9. -/
def line : World where
  cap := 5
  mols := [4, 0, 2, 1]
  atoms := fun m => [m]
  typed := fun _ => true
  molOf := fun a => a
  near := fun _ => [0, 1, 2, 4]
  close := fun a b =>
    let x : ℕ → ℕ := fun i => if i = 4 then 0 else if i = 0 then 2 else if i = 2 then 1 else 9
    decide (x a ≤ x b + 1 ∧ x b ≤ x a + 1)

theorem line_good : Good line where
  nodup := by decide
  lt := by decide
  owner m _ a ha := by simpa [line] using ha
  listed m _ a _ _ b hb := by
    simp only [line, List.mem_cons, List.not_mem_nil, or_false] at hb
    rcases hb with rfl | rfl | rfl | rfl <;> simp [line]
  complete m hm m' hm' a _ b hb _ _ _ := by
    simp only [line, List.mem_singleton] at hb
    subst hb
    simp only [line, List.mem_cons, List.not_mem_nil, or_false] at hm' ⊢
    omega
  symm m _ m' _ a _ b _ h := by
    simp only [line, decide_eq_true_eq] at h ⊢
    exact ⟨h.2, h.1⟩

example : ∃ r, identify line 4 = some (ok r) ∧ r.clusters = [⟨0, 3, some 0⟩, ⟨1, 1, some 1⟩] ∧
    walk r.links 4 (some 0) = [0, 2, 4] := ⟨_, rfl, rfl, rfl⟩

/-! ### Necessity of a symmetric, complete cell list -/

/-- If the neighbour search is not symmetric (as when the cutoff passed to the
cell list were too small), identification stops with `Cluster Clash!`. -/
theorem C38_clash : ∃ w : World, identify w 2 = some throw :=
  ⟨{ cap := 2, mols := [0, 1], atoms := fun m => [m], typed := fun _ => true, molOf := fun a => a
     near := fun a => if a = 1 then [0, 1] else [0], close := fun _ _ => true }, rfl⟩

end Verif.Cluster
