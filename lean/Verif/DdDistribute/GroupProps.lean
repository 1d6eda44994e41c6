import Mathlib.Algebra.BigOperators.Group.Finset.Basic
import Mathlib.Algebra.BigOperators.Group.List.Basic
import Mathlib.Algebra.BigOperators.Ring.Finset
import Mathlib.Tactic.Ring
import Verif.DdDistribute.Model

/-!
# C50: distribution of groups

The specification: after a distribution every processor holds exactly the groups of which it owns
at least one atom, in the order of reading.
-/

set_option autoImplicit false

namespace Verif.DdDistribute

variable {G : Type}

/-- Invariant of the master between calls: `gs` are the groups added since `setup`. -/
structure GInv (nLocal : G → ℕ) (base : List G) (casts0 : List (Msg G)) (gs : List G)
    (s : GDist G) : Prop where
  new : s.new = none
  size : s.buf.length = s.cacheSize
  le : s.cacheSize ≤ s.cacheCap
  store : s.store = base ++ gs.filter fun g => 0 < nLocal g
  nAtom : s.nAtomRecv = (gs.map nLocal).sum
  casts : ∃ cs, s.casts = casts0 ++ cs ∧ (∀ m ∈ cs, m.complete = false ∧ m.items.length ≤ s.bufCap) ∧
    cs.flatMap Msg.items ++ s.buf = gs ∧ s.nSent + s.cacheSize = gs.length

/-- The parameters do not change. -/
def GSame (s t : GDist G) : Prop :=
  t.cacheCap = s.cacheCap ∧ t.bufCap = s.bufCap ∧ t.storeCap = s.storeCap

theorem GDist.one_ok {nLocal : G → ℕ} {base gs : List G} {casts0 : List (Msg G)} {s : GDist G}
    (h : GInv nLocal base casts0 gs s) (hc : 0 < s.cacheCap) (hb : s.cacheCap ≤ s.bufCap) (g : G)
    (hst : 0 < nLocal g → s.store.length < s.storeCap) :
    ∃ t, ((s.newPtr g).bind fun s => s.add nLocal) = .ok t ∧ GSame s t ∧
      GInv nLocal base casts0 (gs ++ [g]) t := by
  obtain ⟨cs, c1, c2, c3, c4⟩ := h.casts
  have hsize := h.size
  have hle := h.le
  -- the state after `newPtr`
  have hnew : ∃ u, s.newPtr g = .ok u ∧ GSame s u ∧ u.new = some g ∧ u.buf.length = u.cacheSize ∧
      u.cacheSize < u.cacheCap ∧ u.store = s.store ∧ u.nAtomRecv = s.nAtomRecv ∧
      ∃ cs, u.casts = casts0 ++ cs ∧
        (∀ m ∈ cs, m.complete = false ∧ m.items.length ≤ s.bufCap) ∧
        cs.flatMap Msg.items ++ u.buf = gs ∧ u.nSent + u.cacheSize = gs.length := by
    unfold GDist.newPtr
    rw [if_neg (by simp [h.new])]
    by_cases hfull : s.cacheSize = s.cacheCap
    · rw [if_pos hfull]
      refine ⟨_, rfl, ⟨rfl, rfl, rfl⟩, rfl, rfl, hc, rfl, rfl, cs ++ [⟨s.buf, false⟩], ?_, ?_, ?_, ?_⟩
      · simp only [c1, List.append_assoc]
      · intro m hm
        rcases List.mem_append.1 hm with hm | hm
        · exact c2 m hm
        · rw [List.mem_singleton.1 hm]
          exact ⟨rfl, by simp only; omega⟩
      · rw [← c3]; simp
      · simp only; omega
    · rw [if_neg hfull]
      exact ⟨_, rfl, ⟨rfl, rfl, rfl⟩, rfl, hsize, by simp only; omega, rfl, rfl, cs, c1, c2, c3, c4⟩
  obtain ⟨u, hu, hs, hn, hbs, hlt, hstore, hna, cs', d1, d2, d3, d4⟩ := hnew
  rw [hu]
  simp only [Except.bind, GDist.add, hn]
  rw [if_neg (by
      rintro ⟨h1, h2⟩
      have := hst h1
      rw [hstore, hs.2.2] at h2
      omega), if_neg (by rw [hbs, hs.2.1]; rw [hs.1] at hlt; omega)]
  refine ⟨_, rfl, ?_, ?_⟩
  · by_cases hp : nLocal g > 0 <;> simp only [hp, if_true, if_false] <;> exact hs
  · by_cases hp : nLocal g > 0
    · simp only [hp, if_true]
      refine ⟨rfl, ?_, ?_, ?_, ?_, cs', d1, ?_, ?_, ?_⟩
      · simp [hbs]
      · simp only; omega
      · have hp' : 0 < nLocal g := hp
        simp [hstore, h.store, hp']
      · simp [hna, h.nAtom]
      · intro m hm; rw [hs.2.1]; exact d2 m hm
      · rw [← d3]; simp
      · simp only [List.length_append, List.length_cons, List.length_nil]; omega
    · simp only [hp, if_false]
      have h0 : nLocal g = 0 := by omega
      refine ⟨rfl, ?_, ?_, ?_, ?_, cs', d1, ?_, ?_, ?_⟩
      · simp [hbs]
      · simp only; omega
      · simp [hstore, h.store, h0]
      · simp [hna, h.nAtom, h0]
      · intro m hm; rw [hs.2.1]; exact d2 m hm
      · rw [← d3]; simp
      · simp only [List.length_append, List.length_cons, List.length_nil]; omega

theorem GDist.addAll_ok {nLocal : G → ℕ} {base : List G} {casts0 : List (Msg G)} (gs : List G)
    {done : List G} {s : GDist G} (h : GInv nLocal base casts0 done s) (hc : 0 < s.cacheCap)
    (hb : s.cacheCap ≤ s.bufCap)
    (hst : base.length + ((done ++ gs).filter fun g => 0 < nLocal g).length ≤ s.storeCap) :
    ∃ t, GDist.addAll nLocal gs s = .ok t ∧ GSame s t ∧ GInv nLocal base casts0 (done ++ gs) t := by
  induction gs generalizing done s with
  | nil => exact ⟨s, rfl, ⟨rfl, rfl, rfl⟩, by simpa using h⟩
  | cons g gs ih =>
    have e : done ++ g :: gs = done ++ [g] ++ gs := by simp
    obtain ⟨u, hu, hs, hinv⟩ := GDist.one_ok h hc hb g (by
      intro hp
      rw [h.store, List.length_append]
      rw [e, List.filter_append, List.filter_append] at hst
      simp only [List.length_append, List.filter_cons, hp, decide_true, if_true, List.filter_nil,
        List.length_cons, List.length_nil] at hst
      omega)
    obtain ⟨v, hv, hs2, hfin⟩ := ih hinv (by rw [hs.1]; exact hc) (by rw [hs.1, hs.2.1]; exact hb)
      (by rw [hs.2.2, ← e]; exact hst)
    refine ⟨v, ?_, ⟨hs2.1.trans hs.1, hs2.2.1.trans hs.2.1, hs2.2.2.trans hs.2.2⟩,
      by rw [e]; exact hfin⟩
    rw [GDist.addAll]
    rcases hn : s.newPtr g with x | w
    · rw [hn] at hu; simp [Except.bind] at hu
    · rw [hn] at hu
      simp only [Except.bind] at hu ⊢
      rw [hu]
      exact hv

theorem receiveGroupItems_ok (nLocal : G → ℕ) (cap : ℕ) (gs : List G) (s : List G × ℕ)
    (h : s.1.length + (gs.filter fun g => 0 < nLocal g).length < cap) :
    receiveGroupItems nLocal cap gs s =
      .ok (s.1 ++ gs.filter fun g => 0 < nLocal g, s.2 + (gs.map nLocal).sum) := by
  induction gs generalizing s with
  | nil => simp [receiveGroupItems]
  | cons g gs ih =>
    rw [receiveGroupItems, if_neg (by omega)]
    by_cases hp : nLocal g > 0
    · have hp' : 0 < nLocal g := hp
      simp only [List.filter_cons, hp', decide_true, if_true, List.length_cons] at h
      rw [if_pos hp, ih]
      · simp [hp', Nat.add_assoc]
      · simp only [List.length_append, List.length_cons, List.length_nil]; omega
    · have h0 : nLocal g = 0 := by omega
      simp only [List.filter_cons, h0, Nat.lt_irrefl, decide_false, Bool.false_eq_true,
        if_false] at h
      rw [if_neg hp, ih s h]
      simp [h0]

theorem receiveGroups_ok (nLocal : G → ℕ) (cap : ℕ) (cs : List (Msg G)) (last : Msg G)
    (s : List G × ℕ) (hf : ∀ m ∈ cs, m.complete = false) (hl : last.complete = true)
    (h : s.1.length + (((cs ++ [last]).flatMap Msg.items).filter fun g => 0 < nLocal g).length <
      cap) :
    receiveGroups nLocal cap (cs ++ [last]) s =
      .ok ((s.1 ++ ((cs ++ [last]).flatMap Msg.items).filter fun g => 0 < nLocal g,
        s.2 + (((cs ++ [last]).flatMap Msg.items).map nLocal).sum), []) := by
  induction cs generalizing s with
  | nil =>
    simp only [List.nil_append, List.flatMap_cons, List.flatMap_nil, List.append_nil] at h ⊢
    rw [receiveGroups, receiveGroupItems_ok _ _ _ _ h]
    simp [Except.bind, hl]
  | cons m cs ih =>
    simp only [List.cons_append, List.flatMap_cons, List.filter_append, List.length_append] at h ⊢
    rw [receiveGroups, receiveGroupItems_ok _ _ _ _ (by omega)]
    simp only [Except.bind, hf m (by simp), Bool.false_eq_true, if_false]
    rw [ih]
    · simp [Nat.add_assoc]
    · intro q hq; exact hf q (by simp [hq])
    · simp only [List.length_append]; omega

/-- A distributor of groups before a distribution: nothing cached, nothing counted. -/
structure GIdle (s : GDist G) : Prop where
  size : s.cacheSize = 0
  sent : s.nSent = 0

/-- **C50.** Distribution of groups over the processors `0, …, P - 1`; `nLocal r g` is the number of
atoms of `g` that processor `r` owns. If the cache is not larger than the buffer and the storages
have room, the distribution succeeds and every processor holds exactly the groups of which it owns
an atom, in order. If every one of the `N` atoms of a group is owned by exactly one processor, the
consistency tests pass. -/
theorem C50_delivery (P N : ℕ) (nLocal : ℕ → G → ℕ) (gs : List G) (s : GDist G) (hs : GIdle s)
    (hc : 0 < s.cacheCap) (hb : s.cacheCap ≤ s.bufCap)
    (hst : s.store.length + (gs.filter fun g => 0 < nLocal 0 g).length ≤ s.storeCap) :
    ∃ t, ((GDist.addAll (nLocal 0) gs s.setup).bind GDist.send) = .ok t ∧
      t.store = s.store ++ (gs.filter fun g => 0 < nLocal 0 g) ∧
      (∀ m ∈ t.casts.drop s.casts.length, m.items.length ≤ s.bufCap) ∧
      (∀ (r cap : ℕ) (store : List G),
        store.length + (gs.filter fun g => 0 < nLocal r g).length < cap →
        receiveGroups (nLocal r) cap (t.casts.drop s.casts.length) (store, 0) =
          .ok ((store ++ (gs.filter fun g => 0 < nLocal r g), (gs.map (nLocal r)).sum), [])) ∧
      (0 < P → (∀ g ∈ gs, ∑ r ∈ Finset.range P, nLocal r g = N) → ∀ recvTotal nTotal : ℕ,
        recvTotal = t.nAtomRecv + ∑ r ∈ Finset.range (P - 1), (gs.map (nLocal (r + 1))).sum →
        nTotal = gs.length → t.check N recvTotal nTotal = .ok ()) := by
  have h0 : GInv (nLocal 0) s.store s.casts [] s.setup := by
    refine ⟨rfl, ?_, ?_, by simp [GDist.setup], rfl, [], by simp [GDist.setup], by simp, rfl, ?_⟩
    · simp [GDist.setup, hs.size]
    · simp [GDist.setup, hs.size]
    · simp [GDist.setup, hs.size, hs.sent]
  obtain ⟨u, hu, hsame, hinv⟩ := GDist.addAll_ok gs h0 hc hb (by simpa [GDist.setup] using hst)
  simp only [List.nil_append] at hinv
  obtain ⟨cs, c1, c2, c3, c4⟩ := hinv.casts
  have hbuf : u.bufCap = s.bufCap := hsame.2.1
  have hcap : u.cacheCap = s.cacheCap := hsame.1
  have hdist : (GDist.addAll (nLocal 0) gs s.setup).bind GDist.send =
      .ok { u with casts := u.casts ++ [⟨u.buf, true⟩], nSent := u.nSent + u.cacheSize, buf := [] } := by
    rw [hu]
    simp only [Except.bind, GDist.send]
    rw [if_neg (by simp [hinv.new])]
  have hdrop : (u.casts ++ [(⟨u.buf, true⟩ : Msg G)]).drop s.casts.length = cs ++ [⟨u.buf, true⟩] := by
    rw [c1, List.append_assoc, List.drop_left]
  have hitems : (cs ++ [(⟨u.buf, true⟩ : Msg G)]).flatMap Msg.items = gs := by
    rw [← c3]; simp
  refine ⟨_, hdist, hinv.store, ?_, ?_, ?_⟩
  · simp only [hdrop]
    intro m hm
    rcases List.mem_append.1 hm with hm | hm
    · rw [← hbuf]; exact (c2 m hm).2
    · rw [List.mem_singleton.1 hm]
      simp only
      have := hinv.size; have := hinv.le
      omega
  · intro r cap store hr
    simp only [hdrop]
    rw [receiveGroups_ok _ _ _ _ _ (fun m hm => (c2 m hm).1) rfl (by rw [hitems]; exact hr), hitems]
    simp
  · intro hP hN recvTotal nTotal h1 h2
    unfold GDist.check
    simp only [c4]
    have hsum : ∑ r ∈ Finset.range P, (gs.map (nLocal r)).sum = gs.length * N := by
      have : ∀ l : List G, (∀ g ∈ l, ∑ r ∈ Finset.range P, nLocal r g = N) →
          ∑ r ∈ Finset.range P, (l.map (nLocal r)).sum = l.length * N := by
        intro l hl
        induction l with
        | nil => simp
        | cons g l ih =>
          simp only [List.map_cons, List.sum_cons, Finset.sum_add_distrib, List.length_cons]
          rw [hl g (by simp), ih fun g hg => hl g (by simp [hg])]
          ring
      exact this gs hN
    have hsplit : ∑ r ∈ Finset.range P, (gs.map (nLocal r)).sum =
        (gs.map (nLocal 0)).sum + ∑ r ∈ Finset.range (P - 1), (gs.map (nLocal (r + 1))).sum := by
      obtain ⟨m, rfl⟩ : ∃ m, P = m + 1 := ⟨P - 1, by omega⟩
      rw [Finset.sum_range_succ', Nat.add_sub_cancel, Nat.add_comm]
    have hrt : recvTotal = gs.length * N := by
      rw [h1, ← hsum, hsplit]
      simp only [hinv.nAtom]
    rw [if_neg (by simp [hrt]), if_neg (by simp [h2])]

/-- **C50, negative.** The capacity of the cache is a separate parameter (1024 unless set) and is not
compared with the room in the buffer: if the cache is larger than the buffer and there are more
groups than fit in the buffer, the distribution throws. -/
theorem C50_large_cache_throws (nLocal : G → ℕ) (gs : List G) (s : GDist G) (hs : GIdle s)
    (hcap : s.bufCap < s.cacheCap) (hlen : s.bufCap < gs.length) :
    GDist.addAll nLocal gs s.setup = .error .throw := by
  have key : ∀ (gs : List G) (s : GDist G), s.new = none → s.buf.length = s.cacheSize →
      s.cacheSize ≤ s.bufCap → s.bufCap < s.cacheCap → s.bufCap < s.cacheSize + gs.length →
      GDist.addAll nLocal gs s = .error .throw := by
    intro gs
    induction gs with
    | nil => intro s _ _ h1 _ h2; simp at h2; omega
    | cons g gs ih =>
      intro s hn hb h1 h2 h3
      rw [GDist.addAll, GDist.newPtr, if_neg (by simp [hn]), if_neg (by omega)]
      simp only [Except.bind, GDist.add]
      by_cases hst : nLocal g > 0 ∧ s.store.length ≥ s.storeCap
      · rw [if_pos hst]
      · rw [if_neg hst]
        by_cases hfull : s.buf.length ≥ s.bufCap
        · rw [if_pos hfull]
        · rw [if_neg hfull]
          simp only
          simp only [List.length_cons] at h3
          by_cases hp : nLocal g > 0
          · simp only [hp, if_true]
            apply ih <;> simp only [List.length_append, List.length_cons, List.length_nil] <;> omega
          · simp only [hp, if_false]
            apply ih <;> simp only [List.length_append, List.length_cons, List.length_nil] <;> omega
  apply key
  · rfl
  · simp [GDist.setup, hs.size]
  · simp [GDist.setup, hs.size]
  · exact hcap
  · simpa [GDist.setup, hs.size] using hlen

/-- **C50, negative.** A receiving processor needs a free slot even for a group that it will not
keep: if its storage is exactly full, a further group without local atoms makes it throw. -/
theorem C50_full_storage_throws (nLocal : G → ℕ) (cap : ℕ) (gs : List G) (g : G) (n : ℕ)
    (hk : ∀ x ∈ gs, 0 < nLocal x) (hlen : gs.length = cap) :
    receiveGroupItems nLocal cap (gs ++ [g]) ([], n) = .error .throw := by
  have key : ∀ (gs : List G) (s : List G × ℕ), (∀ x ∈ gs, 0 < nLocal x) →
      s.1.length + gs.length = cap →
      receiveGroupItems nLocal cap (gs ++ [g]) s = .error .throw := by
    intro gs
    induction gs with
    | nil =>
      intro s _ h
      rw [List.nil_append, receiveGroupItems, if_pos (by simp at h; omega)]
    | cons x gs ih =>
      intro s hk h
      simp only [List.length_cons] at h
      rw [List.cons_append, receiveGroupItems, if_neg (by omega), if_pos (hk x (by simp))]
      apply ih _ fun y hy => hk y (by simp [hy])
      simp only [List.length_append, List.length_cons, List.length_nil]; omega
  exact key gs ([], n) hk (by simpa using hlen)

/-- Non-vacuity: bonds between atoms `0, …, 5`, atom `a` being owned by processor `a / 2` of three;
a cache of two groups and a buffer of three. -/
def exampleLocal (r : ℕ) (g : ℕ × ℕ) : ℕ :=
  (if g.1 / 2 = r then 1 else 0) + (if g.2 / 2 = r then 1 else 0)

def exampleGroups : List (ℕ × ℕ) := [(0, 1), (1, 2), (2, 3), (3, 4), (4, 5)]

def exampleGDist : GDist (ℕ × ℕ) :=
  { cacheCap := 2, bufCap := 3, storeCap := 4, new := none, cacheSize := 0, nSent := 0
    nAtomRecv := 0, store := [], buf := [], casts := [] }

example : GIdle exampleGDist ∧ 0 < exampleGDist.cacheCap ∧
    exampleGDist.cacheCap ≤ exampleGDist.bufCap ∧
    ∀ g ∈ exampleGroups, ∑ r ∈ Finset.range 3, exampleLocal r g = 2 := by
  refine ⟨⟨rfl, rfl⟩, by decide, by decide, by decide⟩

example : (((GDist.addAll (exampleLocal 0) exampleGroups exampleGDist.setup).bind
    GDist.send).toOption.map fun t => (t.store, t.casts.map fun m => (m.items, m.complete))) =
    some ([(0, 1), (1, 2)],
      [([(0, 1), (1, 2)], false), ([(2, 3), (3, 4)], false), ([(4, 5)], true)]) := by decide

end Verif.DdDistribute
