/-
The loops of attempts, and the placement of one molecule.
-/
import Verif.Generate.Lemmas
import Verif.McMoves.Measure

set_option autoImplicit false

namespace Verif.Generate

open Verif.Boundary Verif.McCellList Verif.McCell
open Run

variable {g : Setting} {bravais : Fin 3 → Vec} {A S : Finset ℕ}

theorem Overlaps.congr {q q' : ℕ → Vec} (h : ∀ b ∈ S, q' b = q b) {a : ℕ} {r : Vec} :
    Overlaps g S q' a r ↔ Overlaps g S q a r := by
  unfold Overlaps
  constructor <;> rintro ⟨b, hb, hlt⟩ <;> refine ⟨b, hb, ?_⟩
  · rwa [← h b hb]
  · rwa [h b hb]

/-! ### First atom -/

/-- One attempt at a random position. -/
theorem siteBody_ok (ok : g.OK bravais A) (hd : 0 < maxDiameter g.diams) {s : St} (h : Held g S s)
    (hS : S ⊆ A) {a : ℕ} (haA : a ∈ A) (ha : a ∉ S) (f : Bool) (i : ℕ) :
    ∃ s' b, siteBody g a (s, f, i) = .ok (s', b, i) ∧ (∀ c, c ≠ a → s'.pos c = s.pos c) ∧
      s'.nSite = s.nSite + 1 ∧
      ((b = false ∧ Overlaps g S s.pos a (g.shift (g.site s.nSite)) ∧ Held g S s') ∨
       (b = true ∧ ¬ Overlaps g S s.pos a (g.shift (g.site s.nSite)) ∧ Held g (insert a S) s')) := by
  have hne : ∀ b ∈ S, b ≠ a := fun b hb hba => ha (hba ▸ hb)
  set t : St := { s.setPos a (g.site s.nSite) with nSite := s.nSite + 1 } with ht
  have hta : t.pos a = g.site s.nSite := by simp [ht]
  have htb : ∀ b, b ≠ a → t.pos b = s.pos b := fun b hb => by simp [ht, Function.update_of_ne hb]
  have hH : Held g S t := h.congr (fun b hb => htb b (hne b hb)) rfl
  have ho : Overlaps g S t.pos a (g.shift (t.pos a)) ↔
      Overlaps g S s.pos a (g.shift (g.site s.nSite)) := by
    rw [hta]; exact Overlaps.congr fun b hb => htb b (hne b hb)
  obtain ⟨c, ⟨h1, h2, -⟩ | ⟨h1, h2, h3⟩⟩ := attempt_ok ok hd hH hS haA ha (by
    rw [hta]
    intro i
    have := ok.site s.nSite i
    constructor <;> linarith [this.1, this.2])
  · refine ⟨t.setPos a (g.shift (t.pos a)), false, ?_, ?_, rfl, .inl ⟨rfl, ho.1 h1, ?_⟩⟩
    · change (attemptPlaceAtom g a t >>= fun y => Run.ok (y.1, y.2, i)) = _
      rw [h2]
      rfl
    · intro c hc
      exact (Function.update_of_ne hc _ _).trans (htb c hc)
    · exact hH.congr (fun b hb => Function.update_of_ne (hne b hb) _ _) rfl
  · refine ⟨_, true, ?_, ?_, ?_, .inr ⟨rfl, fun hh => h1 (ho.2 hh), h3⟩⟩
    · change (attemptPlaceAtom g a t >>= fun y => Run.ok (y.1, y.2, i)) = _
      rw [h2]
      rfl
    · intro c hc
      exact (Function.update_of_ne hc _ _).trans (htb c hc)
    · rfl

/-- The loop that places an atom at random returns only with success. -/
theorem siteLoop_post (ok : g.OK bravais A) (hd : 0 < maxDiameter g.diams) {s : St}
    (h : Held g S s) (hS : S ⊆ A) {a : ℕ} (haA : a ∈ A) (ha : a ∉ S) {m : ℕ} (hm : 0 < m) :
    (whileLoop (going m) (siteBody g a) (s, false, 0)).Post fun x =>
      x.2.1 = true ∧ Held g (insert a S) x.1 ∧ ∀ c, c ≠ a → x.1.pos c = s.pos c := by
  refine (whileLoop_post (I := fun x : Loop => x.2.2 = 0 ∧ (∀ c, c ≠ a → x.1.pos c = s.pos c) ∧
    ((x.2.1 = false ∧ Held g S x.1) ∨ (x.2.1 = true ∧ Held g (insert a S) x.1))) ?_
    ⟨rfl, fun _ _ => rfl, .inl ⟨rfl, h⟩⟩).mono ?_
  · rintro ⟨t, f, i⟩ ⟨h1, h2, h3⟩ hc
    have hf : f = false := by simpa [going] using And.left (by simpa [going] using hc : _ ∧ _)
    have hH : Held g S t := by
      rcases h3 with h3 | h3
      · exact h3.2
      · rw [hf] at h3; exact absurd h3.1 (by simp)
    obtain ⟨s', b, e1, e2, -, e3⟩ := siteBody_ok ok hd hH hS haA ha f i
    rw [e1]
    refine ⟨h1, fun c hc => (e2 c hc).trans (h2 c hc), ?_⟩
    rcases e3 with e3 | e3
    · exact .inl ⟨e3.1, e3.2.2⟩
    · exact .inr ⟨e3.1, e3.2.2⟩
  · rintro ⟨t, f, i⟩ ⟨⟨h1, h2, h3⟩, hc⟩
    have h1' : i = 0 := h1
    have hf : f = true := by
      subst h1'
      by_contra hf
      simp [going, hf, hm] at hc
    rcases h3 with h3 | h3
    · exact absurd (h3.1.symm.trans hf) (by simp)
    · exact ⟨h3.1, h3.2, h2⟩

/-- The loop that places an atom at random runs forever if and only if all
random positions to come overlap an atom placed before. -/
theorem siteLoop_hang (ok : g.OK bravais A) (hd : 0 < maxDiameter g.diams) {s : St}
    (h : Held g S s) (hS : S ⊆ A) {a : ℕ} (haA : a ∈ A) (ha : a ∉ S) {m : ℕ} (hm : 0 < m) :
    whileLoop (going m) (siteBody g a) (s, false, 0) = .hang ↔
      ∀ j, s.nSite ≤ j → Overlaps g S s.pos a (g.shift (g.site j)) := by
  have hne : ∀ b ∈ S, b ≠ a := fun b hb hba => ha (hba ▸ hb)
  have hgo : ∀ t : St, going m (t, false, 0) = true := fun t => by simp [going, hm]
  constructor
  · intro hh j hj
    by_contra ho
    have key : ∀ n (t : St), t.nSite + n = j → Held g S t → (∀ c, c ≠ a → t.pos c = s.pos c) →
        whileLoop (going m) (siteBody g a) (t, false, 0) ≠ .hang := by
      intro n
      induction n with
      | zero =>
        intro t hn ht hp
        obtain ⟨s', b, e1, e2, -, e3⟩ := siteBody_ok ok hd ht hS haA ha false 0
        rw [whileLoop_eq, if_pos (hgo t), e1, ok_bind, whileLoop_eq]
        rcases e3 with e3 | e3
        · exact absurd ((Overlaps.congr fun b hb => hp b (hne b hb)).1 e3.2.1)
            (by rw [show t.nSite = j by omega]; exact ho)
        · rw [e3.1, if_neg (by simp [going])]
          simp
      | succ n ih =>
        intro t hn ht hp
        obtain ⟨s', b, e1, e2, e4, e3⟩ := siteBody_ok ok hd ht hS haA ha false 0
        rw [whileLoop_eq, if_pos (hgo t), e1, ok_bind]
        rcases e3 with e3 | e3
        · rw [e3.1]
          exact ih s' (by omega) e3.2.2 fun c hc => (e2 c hc).trans (hp c hc)
        · rw [e3.1, whileLoop_eq, if_neg (by simp [going])]
          simp
    exact key (j - s.nSite) s (by omega) h (fun _ _ => rfl) hh
  · intro ho
    refine whileLoop_hang (I := fun x : Loop => x.2 = (false, 0) ∧ s.nSite ≤ x.1.nSite ∧
      Held g S x.1 ∧ ∀ c, c ≠ a → x.1.pos c = s.pos c) ?_ ⟨rfl, le_rfl, h, fun _ _ => rfl⟩
    rintro ⟨t, f, i⟩ ⟨h1, h2, h3, h4⟩
    simp only [Prod.mk.injEq] at h1
    obtain ⟨rfl, rfl⟩ := h1
    refine ⟨hgo t, ?_⟩
    obtain ⟨s', b, e1, e2, e4, e3⟩ := siteBody_ok ok hd h3 hS haA ha false 0
    refine ⟨_, e1, ?_⟩
    rcases e3 with e3 | e3
    · exact ⟨by rw [e3.1], by have h2' : s.nSite ≤ t.nSite := h2; change _ ≤ s'.nSite; omega,
        e3.2.2, fun c hc => (e2 c hc).trans (h4 c hc)⟩
    · exact absurd ((Overlaps.congr fun b hb => h4 b (hne b hb)).2 (ho _ h2)) e3.2.1

/-! ### Bonded atoms -/

theorem gen_add (ok : g.OK bravais A) (r u : Vec) : g.gen (r + u) = g.gen r + g.gen u := by
  have g1 := ok.geo
  have h0 : g.gen 0 = 0 := by simpa using McMoves.gen_sub g1 0 0
  have h1 := McMoves.gen_sub g1 r (-u)
  have h2 := McMoves.gen_sub g1 0 u
  rw [zero_sub, h0, zero_sub] at h2
  rw [sub_neg_eq_add, h2, sub_neg_eq_add] at h1
  exact h1

/-- One attempt at a bonded position. -/
theorem bondBody_ok (ok : g.OK bravais A) (hd : 0 < maxDiameter g.diams) {s : St} (h : Held g S s)
    (hS : S ⊆ A) {a prev : ℕ} (hprev : prev ∈ S) (haA : a ∈ A) (ha : a ∉ S) (f : Bool) (i : ℕ) :
    ∃ s' b, bondBody g prev a (s, f, i) = .ok (s', b, i + 1) ∧
      (∀ c, c ≠ a → s'.pos c = s.pos c) ∧ s'.nSite = s.nSite ∧
      ((b = false ∧ Held g S s') ∨
       (b = true ∧ Held g (insert a S) s' ∧ ∃ (j : ℕ) (k : IVec),
         s'.pos a = s'.pos prev + g.bond 1 0 j + latComb bravais k)) := by
  have hne : ∀ b ∈ S, b ≠ a := fun b hb hba => ha (hba ▸ hb)
  set t : St := { s.setPos a (s.pos prev + g.bond 1 0 s.nBond) with nBond := s.nBond + 1 } with ht
  have hta : t.pos a = s.pos prev + g.bond 1 0 s.nBond := by simp [ht]
  have htb : ∀ b, b ≠ a → t.pos b = s.pos b := fun b hb => by simp [ht, Function.update_of_ne hb]
  have hH : Held g S t := h.congr (fun b hb => htb b (hne b hb)) rfl
  have hN : NearCell (fun _ => 1) (g.gen (t.pos a)) := by
    rw [hta, gen_add ok]
    intro i
    have h1 := h.unit hprev i
    have h2 := abs_le.1 (ok.bond s.nBond i)
    simp only [Pi.add_apply]
    constructor <;> linarith [h1.1, h1.2, h2.1, h2.2]
  obtain ⟨c, ⟨h1, h2, -⟩ | ⟨h1, h2, h3⟩⟩ := attempt_ok ok hd hH hS haA ha hN
  · refine ⟨t.setPos a (g.shift (t.pos a)), false, ?_, ?_, rfl, .inl ⟨rfl, ?_⟩⟩
    · change (attemptPlaceAtom g a t >>= fun y => Run.ok (y.1, y.2, i + 1)) = _
      rw [h2]
      rfl
    · intro c hc
      exact (Function.update_of_ne hc _ _).trans (htb c hc)
    · exact hH.congr (fun b hb => Function.update_of_ne (hne b hb) _ _) rfl
  · refine ⟨_, true, ?_, ?_, ?_, .inr ⟨rfl, h3, s.nBond, ?_⟩⟩
    · change (attemptPlaceAtom g a t >>= fun y => Run.ok (y.1, y.2, i + 1)) = _
      rw [h2]
      rfl
    · intro c hc
      exact (Function.update_of_ne hc _ _).trans (htb c hc)
    · rfl
    · obtain ⟨k, hk⟩ := (ok.wrap _ hN).2
      refine ⟨-k, ?_⟩
      have e1 : ({ t.setPos a (g.shift (t.pos a)) with cells := c } : St).pos a =
          g.shift (t.pos a) := Function.update_self ..
      have e2 : ({ t.setPos a (g.shift (t.pos a)) with cells := c } : St).pos prev = s.pos prev :=
        (Function.update_of_ne (hne _ hprev) _ _).trans (htb _ (hne _ hprev))
      rw [e1, e2, ← hta, latComb_neg]
      nth_rewrite 2 [hk]
      abel

/-- The loop that places a bonded atom. -/
theorem bondLoop_post (ok : g.OK bravais A) (hd : 0 < maxDiameter g.diams) {s : St}
    (h : Held g S s) (hS : S ⊆ A) {a prev : ℕ} (hprev : prev ∈ S) (haA : a ∈ A) (ha : a ∉ S)
    (m : ℕ) :
    (whileLoop (going m) (bondBody g prev a) (s, false, 0)).Post fun x =>
      (∀ c, c ≠ a → x.1.pos c = s.pos c) ∧
      ((x.2.1 = false ∧ Held g S x.1) ∨
       (x.2.1 = true ∧ Held g (insert a S) x.1 ∧ ∃ (j : ℕ) (k : IVec),
         x.1.pos a = x.1.pos prev + g.bond 1 0 j + latComb bravais k)) := by
  refine (whileLoop_post (I := fun x : Loop => (∀ c, c ≠ a → x.1.pos c = s.pos c) ∧
      ((x.2.1 = false ∧ Held g S x.1) ∨
       (x.2.1 = true ∧ Held g (insert a S) x.1 ∧ ∃ (j : ℕ) (k : IVec),
         x.1.pos a = x.1.pos prev + g.bond 1 0 j + latComb bravais k))) ?_
    ⟨fun _ _ => rfl, .inl ⟨rfl, h⟩⟩).mono fun _ hx => hx.1
  rintro ⟨t, f, i⟩ ⟨h2, h3⟩ hc
  have hf : f = false := And.left (by simpa [going] using hc : f = false ∧ _)
  have hH : Held g S t := by
    rcases h3 with h3 | h3
    · exact h3.2
    · rw [hf] at h3; exact absurd h3.1 (by simp)
  obtain ⟨s', b, e1, e2, -, e3⟩ := bondBody_ok ok hd hH hS hprev haA ha f i
  rw [e1]
  exact ⟨fun c hc => (e2 c hc).trans (h2 c hc), e3⟩

/-- The loop that places a bonded atom ends. -/
theorem bondLoop_ends (ok : g.OK bravais A) (hd : 0 < maxDiameter g.diams) {s : St}
    (h : Held g S s) (hS : S ⊆ A) {a prev : ℕ} (hprev : prev ∈ S) (haA : a ∈ A) (ha : a ∉ S)
    (m : ℕ) : whileLoop (going m) (bondBody g prev a) (s, false, 0) ≠ .hang := by
  refine whileLoop_ends (I := fun x : Loop => x.2.1 = false → Held g S x.1)
    (μ := fun x => m - x.2.2) ?_ fun _ => h
  rintro ⟨t, f, i⟩ hI hc
  have hc' : f = false ∧ i < m := by simpa [going] using hc
  obtain ⟨s', b, e1, e2, -, e3⟩ := bondBody_ok ok hd (hI hc'.1) hS hprev haA ha f i
  rw [e1]
  refine ⟨by simp, fun x hx => ?_⟩
  simp only [Run.ok.injEq] at hx
  subst hx
  refine ⟨fun hb => ?_, fun _ => by change m - (i + 1) < m - i; omega⟩
  rcases e3 with e3 | e3
  · exact e3.2
  · exact absurd (hb.symm.trans e3.1) (by simp)

/-- Removing atoms placed before. -/
theorem deleteAtoms_ok {l : List ℕ} {s : St} (hl : l.Nodup) (hS : ∀ a ∈ l, a ∉ S)
    (h : Held g (S ∪ l.toFinset) s) :
    ∃ s', deleteAtoms l s = .ok s' ∧ Held g S s' ∧ s'.pos = s.pos ∧ s'.nSite = s.nSite := by
  induction l generalizing s with
  | nil => exact ⟨s, rfl, by simpa using h, rfl, rfl⟩
  | cons a l ih =>
    obtain ⟨c, h1, h2, h3⟩ := rel_delete h.rel (a := a) (by simp)
    have he : (S ∪ (a :: l).toFinset).erase a = S ∪ l.toFinset := by
      ext b
      have hn := (List.nodup_cons.1 hl).1
      have ha := hS a (by simp)
      simp only [Finset.mem_erase, Finset.mem_union, List.mem_toFinset, List.mem_cons]
      constructor
      · tauto
      · rintro (hb | hb)
        · exact ⟨fun e => ha (e ▸ hb), .inl hb⟩
        · exact ⟨fun e => hn (e ▸ hb), .inr (.inr hb)⟩
    rw [he] at h3
    obtain ⟨s', e1, e2, e3, e4⟩ := ih (s := { s with cells := c }) (List.nodup_cons.1 hl).2
      (fun b hb => hS b (List.mem_cons_of_mem _ hb))
      ⟨h3, by rw [← h.n]; exact h2, h.apart.subset (by
        intro b hb
        simp only [Finset.mem_union, List.mem_toFinset, List.mem_cons] at hb ⊢
        tauto)⟩
    refine ⟨s', ?_, e2, e3, e4⟩
    simp only [deleteAtoms]
    rw [h1]
    exact e1

/-! ### Molecules -/

theorem Bonded.congr {q q' : ℕ → Vec} {mol : List ℕ} (h : Bonded g bravais q mol)
    (he : ∀ a ∈ mol, q' a = q a) : Bonded g bravais q' mol := by
  intro i a b ha hb
  rw [he a (List.mem_of_getElem? ha), he b (List.mem_of_getElem? hb)]
  exact h i a b ha hb

theorem Bonded.snoc {q : ℕ → Vec} {l : List ℕ} {prev a : ℕ} (h : Bonded g bravais q l)
    (hl : l.getLast? = some prev)
    (hb : ∃ (j : ℕ) (k : IVec), q a = q prev + g.bond 1 0 j + latComb bravais k) :
    Bonded g bravais q (l ++ [a]) := by
  intro i x y hx hy
  rw [List.getLast?_eq_getElem?] at hl
  rcases lt_trichotomy (i + 1) l.length with hi | hi | hi
  · rw [List.getElem?_append_left (by omega)] at hx hy
    exact h i x y hx hy
  · rw [List.getElem?_append_left (by omega)] at hx
    rw [List.getElem?_append_right (by omega), show i + 1 - l.length = 0 by omega] at hy
    rw [show l.length - 1 = i by omega, hx] at hl
    simp only [List.getElem?_cons_zero, Option.some.injEq] at hy hl
    subst hy hl
    exact hb
  · rw [List.getElem?_append_right (by omega)] at hy
    have hlen : ([a] : List ℕ).length ≤ i + 1 - l.length := by simp; omega
    rw [List.getElem?_eq_none hlen] at hy
    simp at hy

/-- The atoms after the first. -/
theorem placeRest_post (ok : g.OK bravais A) (hd : 0 < maxDiameter g.diams) {rest : List ℕ} :
    ∀ {done : List ℕ} {prev : ℕ} {s : St}, S ⊆ A → Held g (S ∪ done.toFinset) s →
      (done ++ rest).Nodup → (∀ a ∈ done ++ rest, a ∈ A ∧ a ∉ S) → done.getLast? = some prev →
      Bonded g bravais s.pos done →
      (placeRest g done prev rest s).Post (fun y =>
        (∀ c, c ∉ done ++ rest → y.1.pos c = s.pos c) ∧
        ((y.2 = false ∧ Held g S y.1) ∨
         (y.2 = true ∧ Held g (S ∪ (done ++ rest).toFinset) y.1 ∧
           Bonded g bravais y.1.pos (done ++ rest)))) ∧
      placeRest g done prev rest s ≠ .hang := by
  induction rest with
  | nil =>
    intro done prev s hS h hn hA hl hb
    exact ⟨⟨fun _ _ => rfl, .inr ⟨rfl, by simpa using h, by simpa using hb⟩⟩, by
      simp [placeRest]⟩
  | cons a rest ih =>
    intro done prev s hS h hn hA hl hb
    have hdone : done ⊆ done ++ a :: rest := by simp
    have hsub : S ∪ done.toFinset ⊆ A := Finset.union_subset hS fun b hb =>
      (hA b (hdone (List.mem_toFinset.1 hb))).1
    have haA := (hA a (by simp)).1
    have haS := (hA a (by simp)).2
    have had : a ∉ done := fun hh => (List.nodup_append.1 hn).2.2 a hh a (by simp) rfl
    have ha : a ∉ S ∪ done.toFinset := by
      simp only [Finset.mem_union, List.mem_toFinset, not_or]
      exact ⟨haS, had⟩
    have hpd : prev ∈ done := List.mem_of_getLast? hl
    have hprev : prev ∈ S ∪ done.toFinset := by simp [hpd]
    have hpost := bondLoop_post ok hd h hsub hprev haA ha 100
    have hends := bondLoop_ends ok hd h hsub hprev haA ha 100
    simp only [placeRest]
    cases hw : whileLoop (going 100) (bondBody g prev a) (s, false, 0) with
    | throw => rw [hw] at hpost; exact hpost.elim
    | ub => rw [hw] at hpost; exact hpost.elim
    | hang => exact absurd hw hends
    | ok x =>
      rw [hw] at hpost
      obtain ⟨h1, h2⟩ := hpost
      rw [ok_bind]
      rcases h2 with ⟨h2, h3⟩ | ⟨h2, h3, h4⟩
      · rw [h2, if_neg (by simp)]
        obtain ⟨s', e1, e2, e3, -⟩ := deleteAtoms_ok (S := S) (List.nodup_append.1 hn).1
          (fun b hb => (hA b (hdone hb)).2) h3
        rw [e1]
        refine ⟨⟨fun c hc => ?_, .inl ⟨rfl, e2⟩⟩, by simp⟩
        change s'.pos c = _
        rw [e3]
        exact h1 c fun e => hc (by simp [e])
      · rw [h2, if_pos rfl]
        have happ : (done ++ [a]) ++ rest = done ++ a :: rest := by simp
        have hset : insert a (S ∪ done.toFinset) = S ∪ (done ++ [a]).toFinset := by
          ext b; simp
        obtain ⟨f1, f2⟩ := ih (done := done ++ [a]) (prev := a) (s := x.1) hS
          (by rw [← hset]; exact h3) (by rw [happ]; exact hn) (by rw [happ]; exact hA) (by simp)
          ((hb.congr (q' := x.1.pos) fun b hb' => h1 b fun e => had (e ▸ hb')).snoc hl h4)
        rw [happ] at f1
        refine ⟨f1.mono ?_, f2⟩
        rintro y ⟨k1, k2⟩
        exact ⟨fun c hc => (k1 c hc).trans (h1 c fun e => hc (by simp [e])), k2⟩

/-- What is known of a molecule about to be placed. -/
structure Fresh (A S : Finset ℕ) (mol : List ℕ) : Prop where
  ne : mol ≠ []
  nodup : mol.Nodup
  mem : ∀ a ∈ mol, a ∈ A ∧ a ∉ S

/-- `attemptPlaceMolecule`: a chain or, for a `Point`, a molecule of one atom. -/
theorem place_post (ok : g.OK bravais A) (hd : 0 < maxDiameter g.diams) {s : St}
    (h : Held g S s) (hS : S ⊆ A) {linear : Bool} {mol : List ℕ} (hm : Fresh A S mol)
    (hp : linear = false → mol.length = 1) :
    (place g linear mol s).Post (fun y => (∀ c, c ∉ mol → y.1.pos c = s.pos c) ∧
      ((y.2 = false ∧ Held g S y.1) ∨
       (y.2 = true ∧ Held g (S ∪ mol.toFinset) y.1 ∧ Bonded g bravais y.1.pos mol))) ∧
    (place g linear mol s = .hang ↔
      ∀ j, s.nSite ≤ j → Overlaps g S s.pos (mol.getD 0 0) (g.shift (g.site j))) := by
  obtain ⟨a, rest, rfl⟩ : ∃ a rest, mol = a :: rest := by
    cases mol with
    | nil => exact absurd rfl hm.ne
    | cons a rest => exact ⟨a, rest, rfl⟩
  have haA := (hm.mem a (by simp)).1
  have ha := (hm.mem a (by simp)).2
  have hins : insert a S = S ∪ [a].toFinset := by ext b; simp
  unfold place
  cases linear with
  | true =>
    simp only [if_true]
    have hpost := siteLoop_post ok hd h hS haA ha (m := 500) (by norm_num)
    have hh := siteLoop_hang ok hd h hS haA ha (m := 500) (by norm_num)
    unfold placeLinear
    simp only [List.getD_cons_zero, List.tail_cons]
    rw [← hh]
    cases hw : whileLoop (going 500) (siteBody g a) (s, false, 0) with
    | throw => rw [hw] at hpost; exact hpost.elim
    | ub => rw [hw] at hpost; exact hpost.elim
    | hang => simp
    | ok x =>
      rw [hw] at hpost
      obtain ⟨h1, h2, h3⟩ := hpost
      rw [ok_bind, h1, if_pos rfl]
      obtain ⟨f1, f2⟩ := placeRest_post ok hd (rest := rest) (done := [a]) (prev := a) (s := x.1)
        hS (by rw [← hins]; exact h2) hm.nodup hm.mem rfl (by
          intro i x y hx hy
          simp at hy)
      refine ⟨f1.mono ?_, ⟨fun e => absurd e f2, fun e => by simp at e⟩⟩
      rintro y ⟨k1, k2⟩
      exact ⟨fun c hc => (k1 c hc).trans (h3 c fun e => hc (by simp [e])), k2⟩
  | false =>
    have hr : rest = [] := by simpa using hp rfl
    subst hr
    simp only [Bool.false_eq_true, if_false]
    have hpost := siteLoop_post ok hd h hS haA ha (m := 1) (by norm_num)
    have hh := siteLoop_hang ok hd h hS haA ha (m := 1) (by norm_num)
    unfold placePoint
    simp only [List.getD_cons_zero]
    rw [← hh]
    cases hw : whileLoop (going 1) (siteBody g a) (s, false, 0) with
    | throw => rw [hw] at hpost; exact hpost.elim
    | ub => rw [hw] at hpost; exact hpost.elim
    | hang => simp
    | ok x =>
      rw [hw] at hpost
      obtain ⟨h1, h2, h3⟩ := hpost
      refine ⟨⟨fun c hc => h3 c fun e => hc (by simp [e]), .inr ⟨h1, by rw [← hins]; exact h2, ?_⟩⟩,
        by simp⟩
      intro i x y hx hy
      simp at hy

end Verif.Generate
