import Mathlib.Tactic.Ring
import Mathlib.Data.List.Count
import Mathlib.Data.List.Nodup
import Mathlib.Algebra.BigOperators.Group.List.Basic
import Verif.DdDistribute.Model

/-!
# C20: collection of atoms and groups

The specification: the collector yields the items to be kept of the master, then those of rank 1,
rank 2 and so on, each once, then null, and all processors leave their loops.
-/

set_option autoImplicit false

namespace Verif.DdDistribute

variable {A : Type}

theorem packLoop_spec (keep : A → Bool) (cap n : ℕ) (l : List A) :
    (packLoop keep cap n l).1 ++ (packLoop keep cap n l).2.filter keep = l.filter keep ∧
    (n < cap → (packLoop keep cap n l).1 = [] → (packLoop keep cap n l).2 = []) ∧
    (n ≤ cap → n + (packLoop keep cap n l).1.length ≤ cap) := by
  induction l generalizing n with
  | nil => simp [packLoop]
  | cons x xs ih =>
    unfold packLoop
    by_cases hn : n < cap
    · rw [if_pos hn]
      by_cases hk : keep x = true
      · rw [if_pos hk]
        obtain ⟨h1, h2, h3⟩ := ih (n + 1)
        refine ⟨?_, ?_, ?_⟩
        · simp [hk, h1]
        · intro _ h; simp at h
        · intro _
          simp only [List.length_cons]
          have := h3 (by omega); omega
      · rw [if_neg hk]
        obtain ⟨h1, h2, h3⟩ := ih n
        refine ⟨?_, h2, h3⟩
        simp [hk, h1]
    · rw [if_neg hn]
      exact ⟨by simp, fun h => absurd h hn, by simp⟩

theorem nextLocal_none (keep : A → Bool) (l : List A) (h : nextLocal keep l = none) :
    l.filter keep = [] := by
  induction l with
  | nil => rfl
  | cons x xs ih =>
    unfold nextLocal at h
    by_cases hk : keep x = true
    · rw [if_pos hk] at h; simp at h
    · rw [if_neg hk] at h
      simp [hk, ih h]

theorem nextLocal_some (keep : A → Bool) (l : List A) {x : A} {xs : List A}
    (h : nextLocal keep l = some (x, xs)) : l.filter keep = x :: xs.filter keep := by
  induction l with
  | nil => simp [nextLocal] at h
  | cons y ys ih =>
    unfold nextLocal at h
    by_cases hk : keep y = true
    · rw [if_pos hk] at h
      simp only [Option.some.injEq, Prod.mk.injEq] at h
      obtain ⟨rfl, rfl⟩ := h
      simp [hk]
    · rw [if_neg hk] at h
      simp [hk, ih h]

/-- Items of the ranks from `a` on that the senders have not sent. -/
def later (keep : A → Bool) (c : Coll A) (a : ℕ) : List A :=
  (List.range' a (c.size - a)).flatMap fun r => (c.senders r).rest.filter keep

theorem later_cons (keep : A → Bool) (c : Coll A) (a : ℕ) (h : a < c.size) :
    later keep c a = (c.senders a).rest.filter keep ++ later keep c (a + 1) := by
  unfold later
  rw [show c.size - a = (c.size - (a + 1)) + 1 by omega, List.range'_succ, List.flatMap_cons]

theorem later_end (keep : A → Bool) (c : Coll A) (a : ℕ) (h : c.size ≤ a) :
    later keep c a = [] := by
  unfold later
  rw [show c.size - a = 0 by omega]; rfl

theorem later_congr (keep : A → Bool) {c d : Coll A} (a : ℕ) (hs : d.size = c.size)
    (h : ∀ r, a ≤ r → d.senders r = c.senders r) : later keep d a = later keep c a := by
  unfold later
  rw [hs]
  apply List.flatMap_congr
  intro r hr
  rw [h r (List.mem_range'_1.1 hr).1]

/-- Unread entries of the array. -/
def unread (c : Coll A) : List A :=
  (List.range' c.arrayId (c.arraySize - c.arrayId)).map c.array

/-- State while receiving from rank `source ≥ 1`. -/
structure Busy (c : Coll A) : Prop where
  pos : 0 < c.source
  lt : c.source < c.size
  cap : 0 < c.bufCap
  acap : 0 < c.arrayCap
  count : c.bufferSize = c.recv.length
  ids : c.arrayId ≤ c.arraySize
  flag : c.complete = (c.senders c.source).done
  done : (c.senders c.source).done = true → (c.senders c.source).rest = []
  open_ : ∀ r, c.source < r → r < c.size → (c.senders r).done = false
  closed : ∀ r, 0 < r → r < c.source → (c.senders r).done = true

/-- Items still to be yielded while receiving. -/
def remaining (keep : A → Bool) (c : Coll A) : List A :=
  unread c ++ c.recv ++ later keep c c.source

theorem unpackLoop_spec (c : Coll A) (l : List A) (hb : c.bufferSize = l.length)
    (hle : c.arrayId ≤ c.arraySize) :
    ∃ (arr : ℕ → A) (n : ℕ) (rest : List A), unpackLoop c l = .ok { c with
        array := arr, arraySize := c.arraySize + n, bufferSize := rest.length, recv := rest } ∧
      (List.range' c.arrayId (c.arraySize - c.arrayId)).map c.array ++ l =
      (List.range' c.arrayId (c.arraySize + n - c.arrayId)).map arr ++ rest ∧
      (l ≠ [] → c.arraySize < c.arrayCap → 0 < n) := by
  induction l generalizing c with
  | nil =>
    refine ⟨c.array, 0, [], ?_, by simp, by simp⟩
    simp only [unpackLoop, hb, List.length_nil, Nat.add_zero]
  | cons x xs ih =>
    unfold unpackLoop
    by_cases hcap : c.arraySize < c.arrayCap
    · rw [if_pos hcap, if_neg (by simp [hb])]
      obtain ⟨arr, n, rest, h1, h2, _⟩ := ih { c with
        array := Function.update c.array c.arraySize x
        arraySize := c.arraySize + 1, bufferSize := c.bufferSize - 1 } (by simp [hb])
        (by simp only; omega)
      refine ⟨arr, n + 1, rest, ?_, ?_, fun _ _ => by omega⟩
      · rw [h1]
        simp only [show c.arraySize + 1 + n = c.arraySize + (n + 1) by omega]
      · simp only at h2
        rw [show c.arraySize + (n + 1) - c.arrayId = c.arraySize + 1 + n - c.arrayId by omega,
          ← h2, show c.arraySize + 1 - c.arrayId = (c.arraySize - c.arrayId) + 1 by omega,
          List.range'_concat, List.map_append]
        have e : c.arrayId + 1 * (c.arraySize - c.arrayId) = c.arraySize := by omega
        rw [e]
        simp only [List.map_cons, List.map_nil, Function.update_self, List.append_assoc,
          List.singleton_append]
        congr 1
        apply List.map_congr_left
        intro a ha
        rw [Function.update_of_ne]
        have := List.mem_range'_1.1 ha
        omega
    · rw [if_neg hcap]
      refine ⟨c.array, 0, x :: xs, ?_, by simp, fun _ h => absurd h hcap⟩
      rw [← hb]; rfl

/-- What a call of the loop must deliver. -/
def Yields (keep : A → Bool) (items : List A) (size : ℕ)
    (r : Except Err (Coll A × Option A)) : Prop :=
  match items with
  | [] => ∃ c', r = .ok (c', none) ∧ c'.source = 0 ∧ c'.size = size ∧
      ∀ q, 0 < q → q < size → (c'.senders q).done = true
  | x :: xs => ∃ c', r = .ok (c', some x) ∧ Busy c' ∧ c'.size = size ∧ remaining keep c' = xs

theorem loop_nonempty (keep : A → Bool) {c : Coll A} (h : Busy c) (hne : c.arrayId < c.arraySize)
    (fuel : ℕ) (hf : 1 ≤ fuel) :
    Yields keep (remaining keep c) c.size (collectLoop keep fuel c) := by
  obtain ⟨n, rfl⟩ : ∃ n, fuel = n + 1 := ⟨fuel - 1, by omega⟩
  rw [collectLoop, if_neg (by omega)]
  have e : remaining keep c = c.array c.arrayId ::
      remaining keep { c with arrayId := c.arrayId + 1 } := by
    unfold remaining unread
    simp only
    rw [show c.arraySize - c.arrayId = (c.arraySize - (c.arrayId + 1)) + 1 by omega,
      List.range'_succ]
    rfl
  rw [e]
  refine ⟨_, rfl, ⟨h.pos, h.lt, h.cap, h.acap, h.count, ?_, h.flag, h.done, h.open_, h.closed⟩,
    rfl, rfl⟩
  simp only; omega

/-- The step from a filled receive buffer to a nonempty array. -/
theorem loop_unpack (keep : A → Bool) {c : Coll A} (h : Busy c) (hb : c.recv ≠ [])
    (hempty : c.arrayId = c.arraySize) (n : ℕ) (hf : 1 ≤ n) :
    Yields keep (remaining keep c) c.size
      ((unpackLoop { c with arraySize := 0, arrayId := 0 } c.recv).bind (collectLoop keep n)) := by
  obtain ⟨arr, k, rest, h1, h2, h3⟩ := unpackLoop_spec { c with arraySize := 0, arrayId := 0 } c.recv
    h.count le_rfl
  rw [h1]
  simp only [Except.bind]
  simp only [Nat.sub_zero, Nat.zero_add, List.range'_zero, List.map_nil, List.nil_append] at h2
  have hk := h3 hb h.acap
  have hB : Busy { c with array := arr, arraySize := 0 + k, arrayId := 0, bufferSize := rest.length
                          recv := rest } :=
    ⟨h.pos, h.lt, h.cap, h.acap, rfl, Nat.zero_le _, h.flag, h.done, h.open_, h.closed⟩
  have := loop_nonempty keep hB (by simp only; omega) n hf
  have e : remaining keep c = remaining keep { c with
      array := arr, arraySize := 0 + k, arrayId := 0, bufferSize := rest.length, recv := rest } := by
    unfold remaining unread
    simp only [hempty, Nat.sub_self, List.range'_zero, List.map_nil, List.nil_append, Nat.zero_add,
      Nat.sub_zero]
    rw [h2]
    rfl
  rw [e]
  exact this

/-- Request to a sender that has not finished. -/
theorem loop_request (keep : A → Bool) {c : Coll A} (h : Busy c) (hrecv : c.recv = [])
    (hempty : c.arrayId = c.arraySize) (hdone : (c.senders c.source).done = false) (n : ℕ)
    (hf : 2 ≤ n)
    (ih : ∀ d : Coll A, Busy d → d.size = c.size → d.source = c.source → d.complete = true →
      d.recv = [] → d.arrayId = d.arraySize →
      (∀ q, q ≠ c.source → d.senders q = c.senders q) → (d.senders c.source).rest = [] →
      Yields keep (remaining keep d) d.size (collectLoop keep (n - 1) d)) :
    Yields keep (remaining keep c) c.size (collectLoop keep n c) := by
  obtain ⟨m, rfl⟩ : ∃ m, n = m + 1 := ⟨n - 1, by omega⟩
  have hcomp : c.complete = false := by rw [h.flag, hdone]
  rw [collectLoop, if_pos hempty]
  have hb0 : c.bufferSize = 0 := by rw [h.count, hrecv]; rfl
  simp only [hb0, if_true, hcomp, Bool.false_eq_true, false_and, if_false]
  rw [if_neg (by have := h.pos; rw [hrecv]; simp; omega)]
  unfold Sender.answer
  rw [if_neg (by simp [hdone])]
  simp only [Except.bind, Bool.false_eq_true, if_false]
  obtain ⟨s1, s2, -⟩ := packLoop_spec keep c.bufCap 0 (c.senders c.source).rest
  set p := packLoop keep c.bufCap 0 (c.senders c.source).rest with hp
  have hB : Busy { c with senders := Function.update c.senders c.source
                            { rest := p.2, done := p.2.isEmpty }
                          recv := p.1, complete := p.2.isEmpty, bufferSize := p.1.length } := by
    refine ⟨h.pos, h.lt, h.cap, h.acap, rfl, h.ids, ?_, ?_, ?_, ?_⟩
    · simp
    · simp only [Function.update_self, List.isEmpty_iff]; exact id
    · intro r hr hr'
      simp only [Function.update_of_ne (Nat.ne_of_gt hr)]
      exact h.open_ r hr hr'
    · intro r hr hr'
      simp only [Function.update_of_ne (Nat.ne_of_lt hr')]
      exact h.closed r hr hr'
  have hrem : remaining keep c = remaining keep { c with
      senders := Function.update c.senders c.source { rest := p.2, done := p.2.isEmpty }
      recv := p.1, complete := p.2.isEmpty, bufferSize := p.1.length } := by
    unfold remaining
    rw [later_cons keep c c.source h.lt]
    have e1 := later_cons keep { c with
      senders := Function.update c.senders c.source { rest := p.2, done := p.2.isEmpty }
      recv := p.1, complete := p.2.isEmpty, bufferSize := p.1.length } c.source h.lt
    have e2 := later_congr keep (c := c) (d := { c with
      senders := Function.update c.senders c.source { rest := p.2, done := p.2.isEmpty }
      recv := p.1, complete := p.2.isEmpty, bufferSize := p.1.length }) (c.source + 1) rfl (by
        intro r hr
        simp only [Function.update_of_ne (show r ≠ c.source by omega)])
    simp only [Function.update_self] at e1
    simp only
    rw [e1, e2, ← s1, hrecv]
    simp only [List.append_assoc, List.append_nil, List.nil_append]
    rfl
  rw [hrem]
  by_cases hitems : p.1 = []
  · have hrest := s2 h.cap hitems
    rw [if_neg (by simp [hitems])]
    refine ih _ hB rfl rfl ?_ hitems hempty ?_ ?_
    · simp [hrest]
    · intro q hq; simp only [Function.update_of_ne hq]
    · simp [hrest]
  · rw [if_pos (by simpa [List.length_pos_iff] using hitems), if_neg (by simp)]
    exact loop_unpack keep hB hitems hempty m (by omega)

/-- End of the processing of rank `source`: move on to the next rank, or finish. -/
theorem loop_all (keep : A → Bool) (k : ℕ) : ∀ (c : Coll A), (Busy c ∨ (c.source = 0 ∧
      c.complete = true ∧ 0 < c.bufCap ∧ 0 < c.arrayCap ∧ 0 < c.size ∧
      ∀ r, 0 < r → r < c.size → (c.senders r).done = false)) → c.size - c.source = k + 1 →
    c.complete = true → c.bufferSize = 0 → c.recv = [] → c.arrayId = c.arraySize →
    (c.source ≠ 0 → (c.senders c.source).rest = []) →
    ∀ fuel, 2 * k + 2 ≤ fuel →
    Yields keep (later keep c (c.source + 1)) c.size (collectLoop keep fuel c) := by
  induction k with
  | zero =>
    intro c hc hk hcomp hb _ hid _ fuel hf
    obtain ⟨n, rfl⟩ : ∃ n, fuel = n + 1 := ⟨fuel - 1, by omega⟩
    rw [later_end keep c _ (by omega), collectLoop, if_pos hid]
    simp only [hb, if_true, hcomp, true_and]
    rw [if_pos (by omega)]
    simp only [Except.bind, if_true]
    refine ⟨_, rfl, rfl, rfl, ?_⟩
    intro q hq0 hq
    rcases hc with hc | hc
    · simp only
      by_cases hqs : q = c.source
      · rw [hqs, ← hc.flag, hcomp]
      · exact hc.closed q hq0 (by omega)
    · omega
  | succ k ih =>
    intro c hc hk hcomp hb hrecv hid hrest fuel hf
    obtain ⟨n, rfl⟩ : ∃ n, fuel = n + 1 := ⟨fuel - 1, by omega⟩
    -- one iteration of the loop is the iteration in the state after moving on
    set d : Coll A := { c with source := c.source + 1, arraySize := 0, arrayId := 0
                               complete := false, bufferSize := 0, recv := [] } with hd
    have hopen : ∀ r, c.source < r → r < c.size → (c.senders r).done = false := by
      rcases hc with hc | hc
      · exact hc.open_
      · intro r hr; exact hc.2.2.2.2.2 r (by omega)
    have hB : Busy d := by
      refine ⟨Nat.succ_pos _, by simp only [hd]; omega, ?_, ?_, rfl, le_rfl, ?_, ?_, ?_, ?_⟩
      · rcases hc with hc | hc
        · exact hc.cap
        · exact hc.2.2.1
      · rcases hc with hc | hc
        · exact hc.acap
        · exact hc.2.2.2.1
      · simp only [hd]; exact (hopen _ (by omega) (by omega)).symm
      · intro hx
        have := hopen (c.source + 1) (by omega) (by omega)
        simp only [hd] at hx
        rw [this] at hx; simp at hx
      · intro r hr hr'
        simp only [hd] at hr hr'
        exact hopen r (by omega) hr'
      · intro r hr hr'
        simp only [hd] at hr hr'
        rcases hc with hc | hc
        · by_cases hrs : r = c.source
          · rw [hrs]; simp only [hd]; rw [← hc.flag, hcomp]
          · exact hc.closed r hr (by omega)
        · omega
    have heq : collectLoop keep (n + 1) c = collectLoop keep (n + 1) d := by
      rw [collectLoop, collectLoop, if_pos hid]
      simp only [hb, if_true, hcomp, true_and, hd, Bool.false_eq_true, false_and, if_false, hrecv]
      rw [if_neg (by omega)]
    have hrem : later keep c (c.source + 1) = remaining keep d := by
      unfold remaining unread
      simp only [hd, Nat.sub_self, List.range'_zero, List.map_nil, List.nil_append]
      rfl
    rw [heq, hrem]
    refine loop_request keep hB rfl rfl (hopen (c.source + 1) (by omega) (by omega)) (n + 1) (by omega) ?_
    intro e he hsize hsrc hecomp herecv heid hsend herest
    simp only [hd] at hsize hsrc
    have h1 := ih e (Or.inl he) (by rw [hsize, hsrc]; omega) hecomp
      (by rw [he.count, herecv]; rfl) herecv heid (fun _ => by rw [hsrc]; exact herest)
      n (by omega)
    have h2 : remaining keep e = later keep e (e.source + 1) := by
      unfold remaining unread
      rw [heid, herecv, later_cons keep e e.source he.lt, hsrc]
      have : (e.senders (c.source + 1)).rest = [] := herest
      simp [this]
    rw [h2]
    exact h1

/-- A call of the loop while receiving. -/
theorem loop_busy (keep : A → Bool) {c : Coll A} (h : Busy c) (fuel : ℕ)
    (hf : 2 * c.size + 3 ≤ fuel) :
    Yields keep (remaining keep c) c.size (collectLoop keep fuel c) := by
  by_cases hne : c.arrayId < c.arraySize
  · exact loop_nonempty keep h hne fuel (by omega)
  have hid : c.arrayId = c.arraySize := by have := h.ids; omega
  by_cases hrecv : c.recv = []
  · by_cases hd : (c.senders c.source).done = true
    · have hrest := h.done hd
      have e : remaining keep c = later keep c (c.source + 1) := by
        unfold remaining unread
        rw [hid, hrecv, later_cons keep c _ h.lt, hrest]
        simp
      rw [e]
      exact loop_all keep (c.size - c.source - 1) c (Or.inl h) (by have := h.lt; omega)
        (by rw [h.flag, hd]) (by rw [h.count, hrecv]; rfl) hrecv hid (fun _ => hrest) fuel
        (by omega)
    · have hd' : (c.senders c.source).done = false := by simpa using hd
      refine loop_request keep h hrecv hid hd' fuel (by omega) ?_
      intro e he hsize hsrc hecomp herecv heid hsend herest
      have h1 := loop_all keep (e.size - e.source - 1) e (Or.inl he) (by have := he.lt; omega)
        hecomp (by rw [he.count, herecv]; rfl) herecv heid
        (fun _ => by rw [hsrc]; exact herest) (fuel - 1) (by omega)
      have h2 : remaining keep e = later keep e (e.source + 1) := by
        unfold remaining unread
        rw [heid, herecv, later_cons keep e e.source he.lt, hsrc, herest]
        simp
      rw [h2]
      exact h1
  · obtain ⟨n, rfl⟩ : ∃ n, fuel = n + 1 := ⟨fuel - 1, by omega⟩
    rw [collectLoop, if_pos hid]
    have hb : c.bufferSize ≠ 0 := by rw [h.count]; simpa using hrecv
    simp only [hb, if_false, Except.bind, Bool.false_eq_true]
    rw [if_pos (by omega), if_neg (by simp [h.count])]
    exact loop_unpack keep h hrecv hid n (by omega)

/-- State of the collection before the last item: at the master or at another rank. -/
def Ready (c : Coll A) : Prop :=
  Busy c ∨ (c.source = 0 ∧ c.recv = [] ∧ 0 < c.bufCap ∧ 0 < c.arrayCap ∧ 0 < c.size ∧
    ∀ r, 0 < r → r < c.size → (c.senders r).done = false)

/-- Items still to be yielded. -/
def output (keep : A → Bool) (c : Coll A) : List A :=
  if c.source = 0 then c.iter.filter keep ++ later keep c 1 else remaining keep c

theorem collectAll_ok (keep : A → Bool) (fuel : ℕ) (n : ℕ) (c : Coll A) (h : Ready c)
    (hf : 2 * c.size + 3 ≤ fuel) (hn : (output keep c).length < n) :
    ∃ c', collectAll keep fuel n c = .ok (c', output keep c) ∧ c'.source = 0 ∧
      ∀ q, 0 < q → q < c.size → (c'.senders q).done = true := by
  induction n generalizing c with
  | zero => omega
  | succ n ih =>
    rw [collectAll]
    unfold nextPtr
    -- result of a call that ends in the loop
    have finish : ∀ (items : List A) (r : Except Err (Coll A × Option A)),
        output keep c = items → Yields keep items c.size r →
        ∃ c', (r.bind fun r => match r.2 with
          | none => .ok (r.1, [])
          | some x => (collectAll keep fuel n r.1).bind fun q => .ok (q.1, x :: q.2)) =
            .ok (c', output keep c) ∧ c'.source = 0 ∧
          ∀ q, 0 < q → q < c.size → (c'.senders q).done = true := by
      intro items r he hy
      cases items with
      | nil =>
        obtain ⟨c', rfl, h0, _, h1⟩ := hy
        exact ⟨c', by simp [Except.bind, he], h0, h1⟩
      | cons x xs =>
        obtain ⟨c', rfl, hb, hs, hr⟩ := hy
        have ho : output keep c' = xs := by
          unfold output
          rw [if_neg (by have := hb.pos; omega), hr]
        rw [he, List.length_cons] at hn
        obtain ⟨c'', h1, h2, h3⟩ := ih c' (Or.inl hb) (by omega) (by rw [ho]; omega)
        refine ⟨c'', ?_, h2, by rw [← hs]; exact h3⟩
        simp only [Except.bind, h1, ho, he]
    by_cases hsrc : c.source = 0
    · rw [if_pos hsrc]
      have hm : c.recv = [] ∧ 0 < c.bufCap ∧ 0 < c.arrayCap ∧ 0 < c.size ∧
          ∀ r, 0 < r → r < c.size → (c.senders r).done = false := by
        rcases h with h | h
        · have := h.pos; omega
        · exact h.2
      rcases hl : nextLocal keep c.iter with _ | ⟨x, xs⟩
      · have hfil := nextLocal_none keep _ hl
        simp only
        refine finish (later keep c 1) _ (by simp [output, hsrc, hfil]) ?_
        have := loop_all keep (c.size - 1) { c with iter := [], bufferSize := 0, arraySize := 0
                                                    arrayId := 0, complete := true }
          (Or.inr ⟨hsrc, rfl, hm.2⟩) (by simp only [hsrc]; omega) rfl rfl hm.1 rfl
          (fun hne => absurd hsrc hne) fuel (by omega)
        have e : later keep { c with iter := [], bufferSize := 0, arraySize := 0
                                     arrayId := 0, complete := true } (c.source + 1) =
            later keep c 1 := by rw [hsrc]; rfl
        rw [← e]
        exact this
      · have hfil := nextLocal_some keep _ hl
        simp only [Except.bind]
        have ho : output keep c = x :: output keep { c with iter := xs } := by
          simp only [output, hsrc, if_true, hfil, List.cons_append]
          rfl
        rw [ho, List.length_cons] at hn
        obtain ⟨c'', h1, h2, h3⟩ := ih { c with iter := xs } (Or.inr ⟨hsrc, hm⟩) hf (by omega)
        refine ⟨c'', ?_, h2, h3⟩
        rw [h1, ho]
    · rw [if_neg hsrc]
      have hb : Busy c := by
        rcases h with h | h
        · exact h
        · exact absurd h.1 hsrc
      exact finish (remaining keep c) _ (by simp [output, hsrc]) (loop_busy keep hb fuel hf)

/-- A collection about to start: processor `r` holds the items `L r`. The contents of the array and
the counters left from earlier collections are arbitrary; the receive buffer is empty. -/
structure Start (nproc bcap acap : ℕ) (L : ℕ → List A) (c : Coll A) : Prop where
  size : c.size = nproc
  bufCap : c.bufCap = bcap
  arrayCap : c.arrayCap = acap
  recv : c.recv = []
  senders : ∀ r, 0 < r → r < nproc → c.senders r = ⟨L r, false⟩

/-- **C20.** For every number of processors, every storage content, every capacity of buffer and
array of at least one: the loop of the master ends without exception, unanswered request or
deadlock, and yields exactly the items to be kept of all processors, each once, in order of rank;
every other processor has left its loop. -/
theorem C20_collect (keep : A → Bool) (size bufCap arrayCap : ℕ) (hs : 0 < size) (hb : 0 < bufCap)
    (ha : 0 < arrayCap) (L : ℕ → List A) (c : Coll A) (hc : Start size bufCap arrayCap L c)
    (fuel n : ℕ) (hf : 2 * size + 3 ≤ fuel)
    (hn : ((List.range size).flatMap fun r => (L r).filter keep).length < n) :
    ∃ c', collectAll keep fuel n (c.setup (L 0)) =
        .ok (c', (List.range size).flatMap fun r => (L r).filter keep) ∧
      ∀ r, 0 < r → r < size → (c'.senders r).done = true := by
  have hout : output keep (c.setup (L 0)) =
      (List.range size).flatMap fun r => (L r).filter keep := by
    unfold output
    rw [if_pos (show (c.setup (L 0)).source = 0 from rfl)]
    obtain ⟨m, rfl⟩ : ∃ m, size = m + 1 := ⟨size - 1, by omega⟩
    rw [List.range_succ_eq_map, List.flatMap_cons]
    congr 1
    unfold later
    have hsz : (c.setup (L 0)).size = m + 1 := hc.size
    rw [hsz, Nat.add_sub_cancel, List.range'_eq_map_range, List.flatMap_map, List.flatMap_map]
    apply List.flatMap_congr
    intro r hr
    have hr' := List.mem_range.1 hr
    have h1 : (c.setup (L 0)).senders (1 + r) = ⟨L (1 + r), false⟩ :=
      hc.senders (1 + r) (by omega) (by omega)
    show ((c.setup (L 0)).senders (1 + r)).rest.filter keep = (L (r + 1)).filter keep
    rw [h1, Nat.add_comm 1 r]
  have hready : Ready (c.setup (L 0)) := by
    refine Or.inr ⟨rfl, hc.recv, ?_, ?_, ?_, ?_⟩
    · show 0 < c.bufCap; rw [hc.bufCap]; exact hb
    · show 0 < c.arrayCap; rw [hc.arrayCap]; exact ha
    · show 0 < c.size; rw [hc.size]; exact hs
    · intro r hr0 hr
      have hr : r < c.size := hr
      rw [hc.size] at hr
      show (c.senders r).done = false
      rw [hc.senders r hr0 hr]
  have hsz : (c.setup (L 0)).size = size := hc.size
  obtain ⟨c', h1, -, h3⟩ := collectAll_ok keep fuel n (c.setup (L 0)) hready (by rw [hsz]; exact hf)
    (by rw [hout]; exact hn)
  rw [hout] at h1
  rw [hsz] at h3
  exact ⟨c', h1, h3⟩

/-- **C20, message size.** An answer never has more items than the buffer has room for. -/
theorem C20_message_fits (keep : A → Bool) (cap : ℕ) (s s' : Sender A) (m : Msg A)
    (h : s.answer keep cap = .ok (s', m)) : m.items.length ≤ cap := by
  unfold Sender.answer at h
  split at h
  · simp at h
  · simp only [Except.ok.injEq, Prod.mk.injEq] at h
    rw [← h.2]
    simpa using (packLoop_spec keep cap 0 s.rest).2.2 (Nat.zero_le _)

/-- **C20, atoms.** If all atoms of all processors have distinct ids, every atom is yielded exactly
once. `AtomCollector` keeps every atom. -/
theorem C20_atoms (id : A → ℤ) (size bufCap arrayCap : ℕ) (hs : 0 < size) (hb : 0 < bufCap)
    (ha : 0 < arrayCap) (L : ℕ → List A) (c : Coll A) (hc : Start size bufCap arrayCap L c)
    (hid : (((List.range size).flatMap L).map id).Nodup) :
    ∃ c' out, (∀ fuel n, 2 * size + 3 ≤ fuel → ((List.range size).flatMap L).length < n →
        ∃ c'', collectAll (fun _ => true) fuel n (c.setup (L 0)) = .ok (c'', out)) ∧
      collectAll (fun _ => true) (2 * size + 3) (((List.range size).flatMap L).length + 1)
        (c.setup (L 0)) = .ok (c', out) ∧
      (out.map id).Nodup ∧ ∀ x, x ∈ out ↔ ∃ r, r < size ∧ x ∈ L r := by
  have hfil : ((List.range size).flatMap fun r => (L r).filter fun _ => true) =
      (List.range size).flatMap L := by simp
  have key := fun fuel n hf hn => C20_collect (fun _ => true) size bufCap arrayCap hs hb ha L c hc
    fuel n hf hn
  simp only [hfil] at key
  obtain ⟨c', h1, -⟩ := key (2 * size + 3) _ le_rfl (Nat.lt_succ_self _)
  refine ⟨c', (List.range size).flatMap L, ?_, h1, hid, ?_⟩
  · intro fuel n hf hn
    obtain ⟨c'', h2, -⟩ := key fuel n hf hn
    exact ⟨c'', h2⟩
  · intro x
    simp [List.mem_flatMap]

/-- **C20, groups.** `GroupCollector` sends a group only from the processor on which its first atom
is present and local (`keep`). If for a group id exactly one processor keeps it, and holds it once,
the group is yielded exactly once, although several processors may hold it. -/
theorem C20_groups (keep : A → Bool) (id : A → ℤ) (size bufCap arrayCap : ℕ) (hs : 0 < size)
    (hb : 0 < bufCap) (ha : 0 < arrayCap) (L : ℕ → List A) (c : Coll A)
    (hc : Start size bufCap arrayCap L c) (g : ℤ) (r : ℕ) (hr : r < size)
    (hone : (((L r).filter keep).map id).count g = 1)
    (hother : ∀ q, q < size → q ≠ r → ∀ x ∈ L q, id x = g → keep x = false) :
    ∃ c' out, collectAll keep (2 * size + 3)
        (((List.range size).flatMap fun r => (L r).filter keep).length + 1) (c.setup (L 0)) =
        .ok (c', out) ∧ (out.map id).count g = 1 := by
  obtain ⟨c', h1, -⟩ := C20_collect keep size bufCap arrayCap hs hb ha L c hc (2 * size + 3) _ le_rfl
    (Nat.lt_succ_self _)
  refine ⟨c', _, h1, ?_⟩
  have hzero : ∀ q, q < size → q ≠ r → (((L q).filter keep).map id).count g = 0 := by
    intro q hq hqr
    rw [List.count_eq_zero]
    intro hm
    obtain ⟨x, hx, hxg⟩ := List.mem_map.1 hm
    have := List.mem_filter.1 hx
    rw [hother q hq hqr x this.1 hxg] at this
    simp at this
  have hsum : ∀ l : List ℕ, l.Nodup → (∀ q ∈ l, q < size) →
      ((l.flatMap fun q => (L q).filter keep).map id).count g = if r ∈ l then 1 else 0 := by
    intro l hnd hl
    induction l with
    | nil => simp
    | cons q l ih =>
      rw [List.flatMap_cons, List.map_append, List.count_append,
        ih (List.nodup_cons.1 hnd).2 fun q hq => hl q (by simp [hq])]
      by_cases hqr : q = r
      · subst hqr
        rw [hone, if_neg (List.nodup_cons.1 hnd).1]; simp
      · rw [hzero q (hl q (by simp)) hqr]
        simp [Ne.symm hqr]
  rw [hsum _ List.nodup_range fun q hq => List.mem_range.1 hq, if_pos (List.mem_range.2 hr)]

/-- Non-vacuity and an actual run: three processors, buffers of two items, an array of one item;
group `7` is held by processors 0 and 2 and sent from 2. -/
def exampleL : ℕ → List (ℤ × Bool)
  | 0 => [(1, true), (7, false)]
  | 1 => []
  | _ => [(7, true), (8, false), (2, true), (3, true), (9, false)]

def exampleColl : Coll (ℤ × Bool) :=
  { size := 3, bufCap := 2, arrayCap := 1, source := 5, bufferSize := 9, array := fun _ => (0, false)
    arraySize := 4, arrayId := 3, complete := true, iter := [], recv := []
    senders := fun r => ⟨exampleL r, false⟩ }

example : Start 3 2 1 exampleL exampleColl := ⟨rfl, rfl, rfl, rfl, fun _ _ _ => rfl⟩

example : ((((exampleL 2).filter Prod.snd).map Prod.fst).count 7 = 1) ∧
    ∀ q, q < 3 → q ≠ 2 → ∀ x ∈ exampleL q, x.1 = 7 → x.2 = false := by
  constructor
  · decide
  · decide

example : ((collectAll Prod.snd 9 6 (exampleColl.setup (exampleL 0))).toOption.map Prod.snd) =
    some [(1, true), (7, true), (2, true), (3, true)] := by decide

end Verif.DdDistribute
