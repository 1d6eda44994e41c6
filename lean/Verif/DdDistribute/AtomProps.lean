import Verif.DdDistribute.AtomLemmas
import Verif.DdDomain.Props
import Verif.Boundary.Ortho

/-!
# C19: distribution of atoms

The specification: rank `r` receives exactly the atoms, in the order in which the master read them,
whose wrapped position is owned by `r`; nothing throws, and the distributor can be used again.
-/

set_option autoImplicit false

namespace Verif.DdDistribute

variable {A : Type}

/-- A distributor between two distributions: every slot of the cache is in the reservoir. -/
structure Idle (s : Dist A) : Prop where
  full : s.res.Perm (List.range s.cacheCap)
  empty : ∀ r, s.arr r = []
  free : s.newPtr = none

/-- A new distributor is idle. -/
theorem idle_allocate (size : ℕ) (cap : ℤ) (sendCap storeCap : ℕ) (cache : ℕ → A)
    (store : List A) : Idle (allocate size cap sendCap storeCap cache store) :=
  ⟨List.Perm.refl _, fun _ => rfl, rfl⟩

/-- The messages of a distribution for rank `r`. -/
def mail (r : ℕ) (s t : Dist A) : List (Msg A) := queueOf r (t.events.drop s.events.length)

/-- Setup of an idle distributor gives the invariant with no atoms. -/
theorem setup_ok (owner : A → Option ℕ) {s : Dist A} (h : Idle s) (hc : 0 < s.cacheCap)
    (hs : 0 < s.sendCap) :
    setup s = .ok { s with buf := [], nCached := 0, nSent := 0 } ∧
      Inv owner s.store s.events [] { s with buf := [], nCached := 0, nSent := 0 } := by
  constructor
  · unfold setup
    rw [if_neg (by simp [h.full.length_eq]), if_neg]
    rintro ⟨r, -, hr⟩
    exact hr (h.empty r)
  · refine ⟨?_, h.free, h.empty 0, fun r _ => h.empty r, ?_, rfl, ?_, ?_, ?_, ⟨[], ?_⟩⟩
    · unfold slots
      simp only [h.empty, h.free, Option.toList, Multiset.coe_nil, Finset.sum_const_zero, add_zero]
      exact Multiset.coe_eq_coe.2 h.full
    · intro r; simp only [h.empty]; exact hs
    · simp [h.empty]
    · simp [ownedBy]
    · intro hres
      have := h.full.length_eq
      simp only at hres
      rw [hres] at this
      simp at this
      omega
    · refine ⟨by simp, by simp, by simp, ?_⟩
      intro r _ _
      simp [delivered, queueOf, h.empty, ownedBy]

theorem queue_false {r : ℕ} {ev : List (ℕ × Msg A)} (h : ∀ e ∈ ev, e.2.complete = false) :
    ∀ m ∈ queueOf r ev, m.complete = false := by
  intro m hm
  simp only [queueOf, List.mem_map, List.mem_filter] at hm
  obtain ⟨e, ⟨he, -⟩, rfl⟩ := hm
  exact h e he

theorem queueOf_map (r : ℕ) (is : List ℕ) (hnd : is.Nodup) (f : ℕ → Msg A) (hr : r ∈ is) :
    queueOf r (is.map fun i => (i, f i)) = [f r] := by
  induction is with
  | nil => simp at hr
  | cons i is ih =>
    rw [List.map_cons, ← List.singleton_append, queueOf_append, queueOf_single]
    by_cases hi : i = r
    · subst hi
      have hno : i ∉ is := (List.nodup_cons.1 hnd).1
      rw [if_pos rfl]
      have : queueOf i (is.map fun j => (j, f j)) = [] := by
        simp only [queueOf, List.map_eq_nil_iff, List.filter_eq_nil_iff, List.mem_map]
        rintro e ⟨j, hj, rfl⟩
        simp only [decide_eq_true_eq]
        rintro rfl; exact hno hj
      rw [this]; rfl
    · rw [if_neg hi]
      exact ih (List.nodup_cons.1 hnd).2 ((List.mem_cons.1 hr).resolve_left (Ne.symm hi))

theorem flatMap_length_sum (is : List ℕ) (f : ℕ → List ℕ) :
    (is.flatMap f).length = (is.map fun i => (f i).length).sum := by
  simp [List.length_flatMap]

theorem range'_sum (n : ℕ) (hn : 0 < n) (f : ℕ → ℕ) (h0 : f 0 = 0) :
    ((List.range' 1 (n - 1)).map f).sum = ∑ r ∈ Finset.range n, f r := by
  obtain ⟨m, rfl⟩ : ∃ m, n = m + 1 := ⟨n - 1, by omega⟩
  rw [Finset.sum_range_succ', h0, add_zero, Nat.add_sub_cancel]
  rw [List.range'_eq_map_range, List.map_map, Finset.sum_range]
  rw [← List.sum_ofFn]
  congr 1
  rw [List.ofFn_eq_map]
  have : List.range m = (List.finRange m).map Fin.val := by simp
  rw [this, List.map_map]
  apply List.map_congr_left
  intro i _
  simp [Nat.add_comm]

theorem owned_total (owner : A → Option ℕ) (n : ℕ) (ys : List A)
    (h : ∀ y ∈ ys, ∃ r, r < n ∧ owner y = some r) :
    ∑ r ∈ Finset.range n, (ownedBy owner r ys).length = ys.length := by
  induction ys with
  | nil => simp [ownedBy]
  | cons y ys ih =>
    obtain ⟨q, hq, hy⟩ := h y (by simp)
    have e : ∀ r, (ownedBy owner r (y :: ys)).length =
        (if r = q then 1 else 0) + (ownedBy owner r ys).length := by
      intro r
      rw [← List.singleton_append, ownedBy_append, List.length_append, ownedBy_single _ _ _ _ hy]
      by_cases hr : q = r
      · simp [hr]
      · simp [hr, Ne.symm hr]
    simp only [e, Finset.sum_add_distrib, ih fun y' hy' => h y' (by simp [hy'])]
    rw [Finset.sum_ite_eq' , if_pos (Finset.mem_range.2 hq), List.length_cons, Nat.add_comm]

/-- Result of a distribution of the atoms `xs`: everything a user relies on. -/
structure Delivered (shift : A → A) (owner : A → Option ℕ) (xs : List A) (s t : Dist A) : Prop where
  /-- The master keeps its own atoms. -/
  master : t.store = s.store ++ (xs.map shift).filter fun y => owner y = some 0
  /-- Every other processor, whatever it holds before, ends with its own atoms added, without an
  exception, and takes every message sent to it. -/
  others : ∀ r, r ≠ 0 → r < s.size → ∀ (cap : ℕ) (store : List A),
    store.length + ((xs.map shift).filter fun y => owner y = some r).length ≤ cap →
    receive owner r cap (mail r s t) store =
      .ok (store ++ (xs.map shift).filter fun y => owner y = some r, [])
  /-- No message is longer than the buffer. -/
  short : ∀ r, ∀ m ∈ mail r s t, m.items.length ≤ s.sendCap
  /-- Messages go only to other processors of the grid. -/
  addressed : ∀ e ∈ t.events.drop s.events.length, e.1 ≠ 0 ∧ e.1 < s.size
  /-- The final tests pass, if the other processors held no atoms before, so that the reduction gives
  the sum of the atoms of the master and the atoms read. -/
  check : ∀ total : ℕ, total = s.store.length + xs.length →
    checkSent total t = .ok ()
  /-- The distributor can be used again. -/
  idle : Idle t
  same : t.size = s.size ∧ t.cacheCap = s.cacheCap ∧ t.sendCap = s.sendCap ∧ t.storeCap = s.storeCap

/-- **C19.** For every list of atoms read on the master, every capacity of the cache and of the
buffer of at least one and every owner function with values in the grid, a distribution on an idle
distributor finishes without an exception or failed assertion, and every processor ends with
exactly the atoms it owns, once each, unchanged apart from the wrapping, in the order of reading. -/
theorem C19_delivery (blank : A) (shift : A → A) (owner : A → Option ℕ) (xs : List A) (s : Dist A)
    (hs : Idle s) (hn : 0 < s.size) (hc : 0 < s.cacheCap) (hb : 0 < s.sendCap)
    (ho : ∀ x ∈ xs, ∃ r, r < s.size ∧ owner (shift x) = some r)
    (hstore : s.store.length + ((xs.map shift).filter fun y => owner y = some 0).length ≤
      s.storeCap) :
    ∃ t, distribute blank shift owner xs s = .ok t ∧ Delivered shift owner xs s t := by
  obtain ⟨h1, h2⟩ := setup_ok owner hs hc hb
  obtain ⟨u, hu, hsame, hinv⟩ := addAll_ok blank shift xs h2 ho (by simpa [ownedBy] using hstore)
  simp only [List.nil_append] at hinv
  have hcard := slots_card u hinv.slots
  have hsize : u.size = s.size := hsame.1
  set is := List.range' 1 (u.size - 1) with his
  have hmem : ∀ i, i ∈ is ↔ i ≠ 0 ∧ i < u.size := by
    intro i; rw [his, List.mem_range'_1]; omega
  have hlen : (is.flatMap u.arr).length = ∑ r ∈ Finset.range u.size, (u.arr r).length := by
    rw [flatMap_length_sum, his, range'_sum _ (by omega) (fun i => (u.arr i).length)]
    simp [hinv.zero]
  have hnd : is.Nodup := List.nodup_range'
  have hsend := sendLoop_ok is u hnd (fun i hi => (hmem i).1 hi) hinv.buf
    (fun i => (hinv.room i).le) (by rw [hlen]; omega)
  have hdist : distribute blank shift owner xs s = sendLoop is u := by
    unfold distribute
    rw [h1]
    simp only [Except.bind, hu]
    unfold send
    rw [if_neg (by simp [hinv.free])]
  refine ⟨_, hdist.trans hsend, ?_⟩
  obtain ⟨ev, e1, e2, e3, e4⟩ := hinv.events
  have hdrop : (u.events ++ is.map fun i => (i, (⟨(u.arr i).map u.cache, true⟩ : Msg A))).drop
      s.events.length = ev ++ is.map fun i => (i, ⟨(u.arr i).map u.cache, true⟩) := by
    rw [e1, List.append_assoc, List.drop_left]
  have hmail : ∀ r, r ≠ 0 → r < s.size → queueOf r
      (ev ++ is.map fun i => (i, (⟨(u.arr i).map u.cache, true⟩ : Msg A))) =
      queueOf r ev ++ [⟨(u.arr r).map u.cache, true⟩] := by
    intro r hr0 hr
    rw [queueOf_append, queueOf_map r is hnd _ ((hmem r).2 ⟨hr0, by omega⟩)]
  have hitems : ∀ r, r ≠ 0 → r < s.size →
      (queueOf r ev ++ [(⟨(u.arr r).map u.cache, true⟩ : Msg A)]).flatMap Msg.items =
      ownedBy owner r (xs.map shift) := by
    intro r hr0 hr
    rw [← e4 r hr0 (by omega)]
    simp [delivered]
  refine ⟨?_, ?_, ?_, ?_, ?_, ⟨?_, ?_, hinv.free⟩, hsame⟩
  · exact hinv.store
  · intro r hr0 hr cap store hcap
    unfold mail
    simp only
    rw [hdrop, hmail r hr0 hr]
    have hi := hitems r hr0 hr
    rw [receive_ok]
    · rw [hi]; rfl
    · exact queue_false fun e he => (e2 e he).2.2.1
    · rfl
    · rw [hi]
      intro x hx
      simpa [ownedBy] using (List.mem_filter.1 hx).2
    · rw [hi]; exact hcap
  · intro r m hm
    unfold mail at hm
    simp only at hm
    rw [hdrop] at hm
    simp only [queueOf, List.mem_map, List.mem_filter] at hm
    obtain ⟨e, ⟨he, -⟩, rfl⟩ := hm
    rcases List.mem_append.1 he with he | he
    · have := (e2 e he).2.2.2
      rw [hsame.2.2.1] at this
      exact this
    · obtain ⟨i, -, rfl⟩ := List.mem_map.1 he
      simp only [List.length_map]
      have := hinv.room i
      rw [hsame.2.2.1] at this
      exact this.le
  · intro e he
    simp only at he
    rw [hdrop] at he
    rcases List.mem_append.1 he with he | he
    · have := e2 e he
      exact ⟨this.1, by rw [← hsize]; exact this.2.1⟩
    · obtain ⟨i, hi, rfl⟩ := List.mem_map.1 he
      have := (hmem i).1 hi
      exact ⟨this.1, by rw [← hsize]; exact this.2⟩
  · intro total htot
    unfold checkSent
    simp only [List.length_append, List.length_reverse, hlen]
    have hfree : u.newPtr.toList.length = 0 := by rw [hinv.free]; rfl
    rw [if_neg (by omega), if_neg (by rw [hinv.nCached]; simp), if_neg]
    -- the number sent is the number of atoms of the other ranks
    have htotal := owned_total owner s.size (xs.map shift) (by
      intro y hy
      obtain ⟨x, hx, rfl⟩ := List.mem_map.1 hy
      exact ho x hx)
    have hev : ∀ l : List (ℕ × Msg A), (∀ e ∈ l, e.1 < s.size) →
        (l.map fun e => e.2.items.length).sum =
          ∑ r ∈ Finset.range s.size, (delivered r l).length := by
      intro l hl
      induction l with
      | nil => simp [delivered, queueOf]
      | cons e l ih =>
        have e' : ∀ r, (delivered r (e :: l)).length =
            (if r = e.1 then e.2.items.length else 0) + (delivered r l).length := by
          intro r
          rw [← List.singleton_append, delivered_append, List.length_append]
          obtain ⟨q, m⟩ := e
          rw [delivered_single]
          by_cases hr : q = r
          · simp [hr]
          · simp [hr, Ne.symm hr]
        simp only [e', Finset.sum_add_distrib, List.map_cons, List.sum_cons,
          ih fun e he => hl e (by simp [he])]
        rw [Finset.sum_ite_eq', if_pos (Finset.mem_range.2 (hl e (by simp)))]
    have h3 := hev ev fun e he => by have := (e2 e he).2.1; omega
    have hsplit : ∑ r ∈ Finset.range s.size, (ownedBy owner r (xs.map shift)).length =
        (ownedBy owner 0 (xs.map shift)).length +
        ∑ r ∈ Finset.range s.size, ((delivered r ev).length + (u.arr r).length) := by
      obtain ⟨m, hm⟩ : ∃ m, s.size = m + 1 := ⟨s.size - 1, by omega⟩
      rw [hm, Finset.sum_range_succ', Finset.sum_range_succ', hinv.zero]
      have hd0 : delivered 0 ev = [] := by
        simp only [delivered, queueOf, List.flatMap_eq_nil_iff, List.mem_map, List.mem_filter]
        rintro m ⟨e, ⟨he, h0⟩, rfl⟩
        exact absurd (by simpa using h0) (e2 e he).1
      rw [hd0]
      simp only [List.length_nil, add_zero]
      rw [Nat.add_comm]
      congr 1
      apply Finset.sum_congr rfl
      intro i hi
      rw [← e4 (i + 1) (by omega) (by have := Finset.mem_range.1 hi; omega)]
      simp
    have hst : u.store.length = s.store.length + (ownedBy owner 0 (xs.map shift)).length := by
      rw [hinv.store]; simp
    rw [Finset.sum_add_distrib] at hsplit
    rw [List.length_map] at htotal
    rw [hsize]
    omega
  · have hm := hinv.slots
    unfold slots at hm
    rw [hinv.free] at hm
    simp only [Option.toList, Multiset.coe_nil, add_zero] at hm
    have hfm : ((is.flatMap u.arr : List ℕ) : Multiset ℕ) =
        ∑ r ∈ Finset.range u.size, (u.arr r : Multiset ℕ) := by
      obtain ⟨m, hm'⟩ : ∃ m, u.size = m + 1 := ⟨u.size - 1, by omega⟩
      have key : ∀ n, (((List.range' 1 n).flatMap u.arr : List ℕ) : Multiset ℕ) =
          ∑ i ∈ Finset.range n, (u.arr (i + 1) : Multiset ℕ) := by
        intro n
        induction n with
        | zero => simp
        | succ n ih =>
          rw [List.range'_concat, List.flatMap_append, ← Multiset.coe_add, ih,
            Finset.sum_range_succ]
          simp [Nat.add_comm]
      rw [his, key, hm', Nat.add_sub_cancel, Finset.sum_range_succ', hinv.zero]
      simp
    refine Multiset.coe_eq_coe.1 ?_
    simp only
    rw [← Multiset.coe_add, Multiset.coe_reverse, hfm, add_comm, hm]
    rfl
  · intro r
    simp only [hmem]
    by_cases hr : r ≠ 0 ∧ r < u.size
    · rw [if_pos hr]
    · rw [if_neg hr]
      by_cases h0 : r = 0
      · rw [h0]; exact hinv.zero
      · exact hinv.beyond r (by omega)

/-- Non-vacuity: three processors, a cache of two atoms, a buffer of two atoms, six atoms. The owner
is the value modulo three, and values of 100 or more are wrapped. -/
def exampleDist : Dist ℕ := allocate 3 2 2 10 (fun _ => 0) []

def exampleShift (x : ℕ) : ℕ := if 100 ≤ x then x - 99 else x

def exampleOwner (x : ℕ) : Option ℕ := if x < 100 then some (x % 3) else none

example : ∃ t, distribute 0 exampleShift exampleOwner [1, 2, 101, 4, 5, 3] exampleDist = .ok t ∧
    Delivered exampleShift exampleOwner [1, 2, 101, 4, 5, 3] exampleDist t := by
  apply C19_delivery _ _ _ _ _ (idle_allocate ..)
  · decide
  · decide
  · decide
  · intro x hx
    simp only [List.mem_cons, List.not_mem_nil, or_false] at hx
    rcases hx with rfl | rfl | rfl | rfl | rfl | rfl <;>
      simp [exampleShift, exampleOwner, exampleDist, allocate]
  · decide

/-- The run of the example: the cache is exhausted twice, and processor 2 is served before its
buffer is full. -/
example : ((distribute 0 exampleShift exampleOwner [1, 2, 101, 4, 5, 3] exampleDist).toOption.map
    fun t => t.events.map fun e => (e.1, e.2.items, e.2.complete)) =
    some [(1, [1], false), (2, [2, 2], false), (1, [4], false), (1, [], true), (2, [5], true)] := by
  decide

/-! ### All interleavings -/

/-- The master and the receivers run concurrently: messages the master has still to send, the
messages in transit to each rank, in order, and the messages each rank has taken. -/
structure Net (A : Type) where
  todo : List (ℕ × Msg A)
  transit : ℕ → List (Msg A)
  taken : ℕ → List (Msg A)

/-- Steps: the master sends its next message; or a processor that has not seen a completion flag
takes the first message in transit to it. -/
inductive Net.Step : Net A → Net A → Prop
  | emit (c : Net A) (r : ℕ) (m : Msg A) (l : List (ℕ × Msg A)) (h : c.todo = (r, m) :: l) :
      Net.Step c { c with todo := l, transit := Function.update c.transit r (c.transit r ++ [m]) }
  | take (c : Net A) (r : ℕ) (m : Msg A) (l : List (Msg A)) (h : c.transit r = m :: l)
      (hopen : ∀ m' ∈ c.taken r, m'.complete = false) :
      Net.Step c { c with transit := Function.update c.transit r l
                          taken := Function.update c.taken r (c.taken r ++ [m]) }

/-- Executions of `n` steps. -/
inductive Net.Steps : Net A → ℕ → Net A → Prop
  | refl (c : Net A) : Net.Steps c 0 c
  | tail {c c' c'' : Net A} {n : ℕ} : Net.Steps c n c' → Net.Step c' c'' → Net.Steps c (n + 1) c''

/-- Initial configuration. -/
def Net.start (ev : List (ℕ × Msg A)) : Net A := ⟨ev, fun _ => [], fun _ => []⟩

theorem Net.step_inv {ev : List (ℕ × Msg A)} {c c' : Net A}
    (h : ∀ r, c.taken r ++ c.transit r ++ queueOf r c.todo = queueOf r ev) (hs : Net.Step c c') :
    ∀ r, c'.taken r ++ c'.transit r ++ queueOf r c'.todo = queueOf r ev := by
  intro q
  rw [← h q]
  cases hs with
  | emit r m l hl =>
    simp only
    rw [hl, ← List.singleton_append (x := (r, m)), queueOf_append, queueOf_single]
    by_cases hq : q = r
    · subst hq; simp
    · rw [Function.update_of_ne hq, if_neg (Ne.symm hq), List.nil_append]
  | take r m l hl _ =>
    simp only
    by_cases hq : q = r
    · subst hq; simp [hl]
    · rw [Function.update_of_ne hq, Function.update_of_ne hq]

theorem Net.steps_inv {ev : List (ℕ × Msg A)} {n : ℕ} {c : Net A}
    (h : Net.Steps (Net.start ev) n c) :
    ∀ r, c.taken r ++ c.transit r ++ queueOf r c.todo = queueOf r ev := by
  generalize hc : Net.start ev = c0 at h
  induction h with
  | refl => subst hc; intro r; simp [Net.start]
  | tail _ hs ih => exact Net.step_inv ih hs

/-- A successful reception that leaves nothing has the completion flag in the last message only. -/
theorem receive_prefix {owner : A → Option ℕ} {rank cap : ℕ} (a b : List (Msg A))
    (store out : List A) (h : receive owner rank cap (a ++ b) store = .ok (out, [])) (hb : b ≠ []) :
    ∀ m ∈ a, m.complete = false := by
  induction a generalizing store with
  | nil => simp
  | cons m a ih =>
    rw [List.cons_append, receive] at h
    rcases hr : receiveItems owner rank cap m.items store with e | st
    · rw [hr] at h; simp [Except.bind] at h
    · rw [hr] at h
      simp only [Except.bind] at h
      by_cases hm : m.complete = true
      · rw [if_pos hm] at h
        simp only [Except.ok.injEq, Prod.mk.injEq, List.append_eq_nil_iff] at h
        exact absurd h.2.2 hb
      · rw [if_neg hm] at h
        intro m' hm'
        rcases List.mem_cons.1 hm' with rfl | hm'
        · simpa using hm
        · exact ih st h m' hm'

/-- **C19, all interleavings.** Whatever the order in which the master sends and the processors
receive: the system is never stuck before all messages have been taken, it makes at most two steps
per message, and when it ends every processor has taken exactly its messages, in order, so that it
stores exactly its atoms. -/
theorem C19_all_interleavings (shift : A → A) (owner : A → Option ℕ) (xs : List A) (s t : Dist A)
    (hd : Delivered shift owner xs s t) {n : ℕ} {c : Net A}
    (h : Net.Steps (Net.start (t.events.drop s.events.length)) n c) :
    ((∀ c', ¬ Net.Step c c') → ∀ r, r ≠ 0 → r < s.size → c.taken r = mail r s t ∧
      ∀ (cap : ℕ) (store : List A),
        store.length + ((xs.map shift).filter fun y => owner y = some r).length ≤ cap →
        receive owner r cap (c.taken r) store =
          .ok (store ++ (xs.map shift).filter fun y => owner y = some r, [])) ∧
    n ≤ 2 * (t.events.drop s.events.length).length := by
  have hinv := Net.steps_inv h
  constructor
  · intro hstop r hr0 hr
    have htodo : c.todo = [] := by
      rcases hh : c.todo with _ | ⟨⟨q, m⟩, l⟩
      · rfl
      · exact absurd (Net.Step.emit c q m l hh) (hstop _)
    have hcat : c.taken r ++ c.transit r = mail r s t := by
      have := hinv r
      rw [htodo] at this
      simpa [queueOf, mail] using this
    have htr : c.transit r = [] := by
      rcases hh : c.transit r with _ | ⟨m, l⟩
      · rfl
      · refine absurd (Net.Step.take c r m l hh ?_) (hstop _)
        have ho := hd.others r hr0 hr _ [] (Nat.le_refl _)
        rw [← hcat, hh] at ho
        exact receive_prefix _ _ _ _ ho (by simp)
    have : c.taken r = mail r s t := by rw [← hcat, htr, List.append_nil]
    refine ⟨this, ?_⟩
    rw [this]
    exact hd.others r hr0 hr
  · -- each step either sends or takes a message
    have key : ∀ {ev : List (ℕ × Msg A)} {n : ℕ} {c : Net A}, Net.Steps (Net.start ev) n c →
        ∃ a b, n = a + b ∧ a + c.todo.length = ev.length ∧
          ∃ R : Finset ℕ, (∀ r ∉ R, c.transit r = []) ∧
            b + ∑ r ∈ R, (c.transit r).length = a := by
      intro ev n c hh
      generalize hc : Net.start ev = c0 at hh
      induction hh with
      | refl => subst hc; exact ⟨0, 0, rfl, by simp [Net.start], ∅, fun _ _ => rfl, by simp⟩
      | tail _ hs ih =>
        obtain ⟨a, b, h1, h2, R, h3, h4⟩ := ih
        cases hs with
        | emit r m l hl =>
          rename_i c' _ _
          refine ⟨a + 1, b, by omega, by rw [hl] at h2; simp at h2 ⊢; omega, insert r R, ?_, ?_⟩
          · intro q hq
            simp only [Finset.mem_insert, not_or] at hq
            simp only [Function.update_of_ne hq.1]
            exact h3 q hq.2
          · by_cases hrR : r ∈ R
            · rw [Finset.insert_eq_of_mem hrR]
              rw [← Finset.add_sum_erase _ _ hrR] at h4 ⊢
              have : ∑ x ∈ R.erase r, (Function.update c'.transit r (c'.transit r ++ [m]) x).length =
                  ∑ x ∈ R.erase r, (c'.transit x).length :=
                Finset.sum_congr rfl fun x hx => by
                  rw [Function.update_of_ne (Finset.ne_of_mem_erase hx)]
              simp only [this, Function.update_self, List.length_append, List.length_cons,
                List.length_nil]
              omega
            · rw [Finset.sum_insert hrR]
              have : ∑ x ∈ R, (Function.update c'.transit r (c'.transit r ++ [m]) x).length =
                  ∑ x ∈ R, (c'.transit x).length :=
                Finset.sum_congr rfl fun x hx => by
                  rw [Function.update_of_ne]; rintro rfl; exact hrR hx
              rw [this]
              simp only [Function.update_self]
              rw [h3 r hrR]
              simp only [List.length_append, List.length_cons, List.length_nil]
              omega
        | take r m l hl _ =>
          rename_i c' _ _ _
          have hrR : r ∈ R := by
            by_contra hno
            rw [h3 r hno] at hl
            exact List.cons_ne_nil _ _ hl.symm
          refine ⟨a, b + 1, by omega, h2, R, ?_, ?_⟩
          · intro q hq
            have : q ≠ r := by rintro rfl; exact hq hrR
            simp only [Function.update_of_ne this]
            exact h3 q hq
          · rw [← Finset.add_sum_erase _ _ hrR] at h4 ⊢
            have : ∑ x ∈ R.erase r, (Function.update c'.transit r l x).length =
                ∑ x ∈ R.erase r, (c'.transit x).length :=
              Finset.sum_congr rfl fun x hx => by
                rw [Function.update_of_ne (Finset.ne_of_mem_erase hx)]
            simp only [this, Function.update_self]
            rw [hl] at h4
            simp only [List.length_cons] at h4
            omega
    obtain ⟨a, b, h1, h2, R, -, h4⟩ := key h
    omega

/-! ### With the processor grid -/

open Verif.Boundary Verif.DdDomain

/-- An atom of the distributor: scaled position and the remaining data. -/
structure PosAtom (D : Type) where
  pos : Vec
  data : D

/-- `Boundary::shiftGen` on the position. -/
noncomputable def wrapAtom {D : Type} (a : PosAtom D) : PosAtom D :=
  { a with pos := shiftGen a.pos }

/-- `Domain::ownerRank` on the position. -/
noncomputable def gridOwner {D : Type} (d : Domain) (a : PosAtom D) : Option ℕ :=
  (d.ownerRank a.pos).map Int.toNat

/-- **C19, with the processor grid.** If every scaled coordinate is within one cell of the primary
cell, then distribution over a grid of `n 0 * n 1 * n 2` processors succeeds, and the processor of
rank `r` receives exactly the atoms whose wrapped position lies in its domain. -/
theorem C19_grid {D : Type} (n : IVec) (hn : ∀ i, 0 < n i) (p0 : Domain)
    (hp0 : init n (n 0 * n 1 * n 2) 0 = some p0) (blank : PosAtom D) (xs : List (PosAtom D))
    (s : Dist (PosAtom D)) (hs : Idle s) (hsize : (s.size : ℤ) = n 0 * n 1 * n 2)
    (hc : 0 < s.cacheCap) (hb : 0 < s.sendCap)
    (hx : ∀ x ∈ xs, ∀ i, -1 ≤ x.pos i ∧ x.pos i < 2)
    (hstore : s.store.length + xs.length ≤ s.storeCap) :
    ∃ t, distribute blank wrapAtom (gridOwner p0) xs s = .ok t ∧
      Delivered wrapAtom (gridOwner p0) xs s t ∧
      ∀ (r : ℕ), r < s.size → ∀ d, init n (n 0 * n 1 * n 2) r = some d →
        ∀ x ∈ xs, gridOwner p0 (wrapAtom x) = some r ↔ d.isInDomain (wrapAtom x).pos := by
  have hpos : (0 : ℤ) < n 0 * n 1 * n 2 := by
    have := hn 0; have := hn 1; have := hn 2; positivity
  have hsz : 0 < s.size := by omega
  have hin : ∀ x ∈ xs, ∀ i, 0 ≤ (wrapAtom x).pos i ∧ (wrapAtom x).pos i < 1 := by
    intro x hxm i
    have := hx x hxm i
    exact shift1_range (L := 1) (by linarith [this.1]) (by linarith [this.2])
  have hown : ∀ x ∈ xs, ∃ r, r < s.size ∧ gridOwner p0 (wrapAtom x) = some r := by
    intro x hxm
    obtain ⟨o, ho0, ho1, ho⟩ := C15_unique_owner n _ _ (hin x hxm) hn rfl
    refine ⟨o.toNat, by omega, ?_⟩
    unfold gridOwner
    rw [(ho 0 p0 le_rfl hpos hp0).1]
    rfl
  obtain ⟨t, ht, hd⟩ := C19_delivery blank wrapAtom (gridOwner p0) xs s hs hsz hc hb hown (by
    have := List.length_filter_le (fun y => decide (gridOwner p0 y = some 0)) (xs.map wrapAtom)
    rw [List.length_map] at this
    omega)
  refine ⟨t, ht, hd, ?_⟩
  intro r hr d hdr x hxm
  obtain ⟨o, ho0, ho1, ho⟩ := C15_unique_owner n _ _ (hin x hxm) hn rfl
  have hr' : (r : ℤ) < n 0 * n 1 * n 2 := by omega
  have h2 := (ho r d (by omega) hr' hdr).2
  unfold gridOwner
  rw [(ho 0 p0 le_rfl hpos hp0).1, h2]
  simp only [Option.map_some, Option.some.injEq]
  omega

end Verif.DdDistribute
