import Verif.DdChem.Model
import Mathlib.Tactic.FinCases
import Mathlib.Data.Fintype.Basic
import Mathlib.Data.List.Basic

/-!
# C10 (plans), C11 (ghost bit and pseudo-members of atoms), C46 (masks)
-/

set_option autoImplicit false

namespace Verif.DdChem

/-! ## C10: plans -/

namespace Plan

/-- Bit number of a flag. -/
def gBit (i : Fin 3) (j : Fin 2) : Nat := 2 * i.val + j.val
def eBit (i : Fin 3) (j : Fin 2) : Nat := 8 + 2 * i.val + j.val

theorem gMask_eq (i : Fin 3) (j : Fin 2) : gMask i j = BitVec.twoPow 32 (gBit i j) := by
  revert i j; decide

theorem eMask_eq (i : Fin 3) (j : Fin 2) : eMask i j = BitVec.twoPow 32 (eBit i j) := by
  revert i j; decide

theorem gBit_lt (i : Fin 3) (j : Fin 2) : gBit i j < 32 := by unfold gBit; omega
theorem eBit_lt (i : Fin 3) (j : Fin 2) : eBit i j < 32 := by unfold eBit; omega

theorem test_twoPow (x : BitVec 32) (n : Nat) (hn : n < 32) :
    decide (x &&& BitVec.twoPow 32 n ≠ 0#32) = x.getLsbD n := by
  rw [BitVec.and_twoPow]
  cases h : x.getLsbD n
  · simp
  · simp only [if_true, ne_eq, decide_eq_true_eq]
    intro h0
    have := congrArg (fun y => BitVec.getLsbD y n) h0
    simp [hn] at this

theorem exchange_eq (p : Plan) (i : Fin 3) (j : Fin 2) :
    p.exchange i j = p.flags.getLsbD (eBit i j) := by
  unfold exchange; rw [eMask_eq]; exact test_twoPow _ _ (eBit_lt i j)

theorem ghost_eq (p : Plan) (i : Fin 3) (j : Fin 2) :
    p.ghost i j = p.flags.getLsbD (gBit i j) := by
  unfold ghost; rw [gMask_eq]; exact test_twoPow _ _ (gBit_lt i j)

/-- What a client sees of a plan: twelve independent booleans. -/
structure Abs where
  e : Fin 3 → Fin 2 → Bool
  g : Fin 3 → Fin 2 → Bool

def obs (p : Plan) : Abs := ⟨p.exchange, p.ghost⟩

def set2 (f : Fin 3 → Fin 2 → Bool) (i : Fin 3) (j : Fin 2) (b : Bool) : Fin 3 → Fin 2 → Bool :=
  fun i' j' => if i' = i ∧ j' = j then b else f i' j'

/-- Intended effect of each call: one flag changes, or all. -/
def spec (a : Abs) : Op → Abs
  | .setExchange i j => { a with e := set2 a.e i j true }
  | .clearExchange i j => { a with e := set2 a.e i j false }
  | .setGhost i j => { a with g := set2 a.g i j true }
  | .clearGhost i j => { a with g := set2 a.g i j false }
  | .clearFlags => ⟨fun _ _ => false, fun _ _ => false⟩
  | .copyFlags q => ⟨q.exchange, q.ghost⟩

theorem bit_inj_g {i i' : Fin 3} {j j' : Fin 2} : gBit i j = gBit i' j' ↔ i = i' ∧ j = j' := by
  revert i i' j j'; decide
theorem bit_inj_e {i i' : Fin 3} {j j' : Fin 2} : eBit i j = eBit i' j' ↔ i = i' ∧ j = j' := by
  revert i i' j j'; decide
theorem bit_ne (i i' : Fin 3) (j j' : Fin 2) : gBit i j ≠ eBit i' j' := by
  unfold gBit eBit; omega

theorem getLsbD_or_twoPow (x : BitVec 32) (n k : Nat) (hk : k < 32) :
    (x ||| BitVec.twoPow 32 n).getLsbD k = if k = n then true else x.getLsbD k := by
  rw [BitVec.getLsbD_or, BitVec.getLsbD_twoPow]
  by_cases h : k = n
  · subst h; simp [hk]
  · have : n ≠ k := fun e => h e.symm
    simp [h, this]

theorem getLsbD_and_not_twoPow (x : BitVec 32) (n k : Nat) (hk : k < 32) :
    (x &&& ~~~ BitVec.twoPow 32 n).getLsbD k = if k = n then false else x.getLsbD k := by
  rw [BitVec.getLsbD_and, BitVec.getLsbD_not, BitVec.getLsbD_twoPow]
  by_cases h : k = n
  · subst h; simp [hk]
  · have : n ≠ k := fun e => h e.symm
    simp [h, hk, this]

theorem Abs.ext_ {a b : Abs} (h1 : ∀ i j, a.e i j = b.e i j) (h2 : ∀ i j, a.g i j = b.g i j) :
    a = b := by
  obtain ⟨e, g⟩ := a
  obtain ⟨e', g'⟩ := b
  have h1' : e = e' := funext fun i => funext fun j => h1 i j
  have h2' : g = g' := funext fun i => funext fun j => h2 i j
  rw [h1', h2']

theorem obs_step (p : Plan) (op : Op) : obs (step p op) = spec (obs p) op := by
  cases op with
  | setExchange i j =>
    apply Abs.ext_ <;> intro i' j'
    · simp only [obs, step, spec, set2, setExchange, exchange_eq, eMask_eq]
      rw [getLsbD_or_twoPow _ _ _ (eBit_lt _ _)]
      simp only [bit_inj_e]
    · simp only [obs, step, spec, setExchange, ghost_eq, eMask_eq]
      rw [getLsbD_or_twoPow _ _ _ (gBit_lt _ _), if_neg (bit_ne _ _ _ _)]
  | clearExchange i j =>
    apply Abs.ext_ <;> intro i' j'
    · simp only [obs, step, spec, set2, clearExchange, exchange_eq, eMask_eq]
      rw [getLsbD_and_not_twoPow _ _ _ (eBit_lt _ _)]
      simp only [bit_inj_e]
    · simp only [obs, step, spec, clearExchange, ghost_eq, eMask_eq]
      rw [getLsbD_and_not_twoPow _ _ _ (gBit_lt _ _), if_neg (bit_ne _ _ _ _)]
  | setGhost i j =>
    apply Abs.ext_ <;> intro i' j'
    · simp only [obs, step, spec, setGhost, exchange_eq, gMask_eq]
      rw [getLsbD_or_twoPow _ _ _ (eBit_lt _ _), if_neg (bit_ne _ _ _ _).symm]
    · simp only [obs, step, spec, set2, setGhost, ghost_eq, gMask_eq]
      rw [getLsbD_or_twoPow _ _ _ (gBit_lt _ _)]
      simp only [bit_inj_g]
  | clearGhost i j =>
    apply Abs.ext_ <;> intro i' j'
    · simp only [obs, step, spec, clearGhost, exchange_eq, gMask_eq]
      rw [getLsbD_and_not_twoPow _ _ _ (eBit_lt _ _), if_neg (bit_ne _ _ _ _).symm]
    · simp only [obs, step, spec, set2, clearGhost, ghost_eq, gMask_eq]
      rw [getLsbD_and_not_twoPow _ _ _ (gBit_lt _ _)]
      simp only [bit_inj_g]
  | clearFlags =>
    apply Abs.ext_ <;> intro i' j' <;> simp [obs, step, spec, clearFlags, exchange, ghost]
  | copyFlags q => rfl

/-- **C10, flags.** After any sequence of calls on a new plan, each of the twelve
flags has the value given by the last call that concerns it. -/
theorem C10_flags (ops : List Op) :
    obs (run new ops) = ops.foldl spec ⟨fun _ _ => false, fun _ _ => false⟩ := by
  have h0 : obs new = ⟨fun _ _ => false, fun _ _ => false⟩ := by
    unfold obs new
    congr 1 <;> funext i j <;> simp [exchange, ghost]
  have key : ∀ (ops : List Op) (p : Plan), obs (run p ops) = ops.foldl spec (obs p) := by
    intro ops
    induction ops with
    | nil => intro p; rfl
    | cons op ops ih =>
      intro p
      have := ih (step p op)
      simp only [run, List.foldl_cons] at this ⊢
      rw [this, obs_step]
  rw [key, h0]

/-- Two plans with the same twelve flags agree as far as any client can see. -/
theorem C10_no_other_state (p q : Plan) (h : obs p = obs q) (ops : List Op) :
    obs (run p ops) = obs (run q ops) := by
  induction ops generalizing p q with
  | nil => exact h
  | cons op ops ih => exact ih _ _ (by rw [obs_step, obs_step, h])

example : ((run new [.setExchange 1 0, .setGhost 2 1, .clearExchange 1 0]).ghost 2 1,
    (run new [.setExchange 1 0, .setGhost 2 1, .clearExchange 1 0]).exchange 1 0) = (true, false) := by
  decide

/-! ### Text -/

theorem digit_not_space (b : Bool) : isSpace (digit b) = false := by cases b <;> decide

theorem word_digits (l : List Bool) (rest : List Char) (hl : l ≠ [])
    (hrest : rest = [] ∨ ∃ c t, rest = c :: t ∧ isSpace c = true) (pre : List Char)
    (hpre : ∀ c ∈ pre, isSpace c = true) :
    word (pre ++ (l.map digit ++ rest)) = (l.map digit, rest) := by
  have h1 : (pre ++ (l.map digit ++ rest)).dropWhile isSpace = l.map digit ++ rest := by
    induction pre with
    | nil =>
      cases l with
      | nil => exact absurd rfl hl
      | cons b l => simp [List.dropWhile, digit_not_space]
    | cons c pre ih =>
      simp only [List.cons_append]
      rw [List.dropWhile_cons_of_pos (hpre c (by simp))]
      exact ih (fun c hc => hpre c (by simp [hc]))
  have h2 : ∀ (l : List Bool), (l.map digit ++ rest).takeWhile (fun c => !isSpace c) = l.map digit
      ∧ (l.map digit ++ rest).dropWhile (fun c => !isSpace c) = rest := by
    intro l
    induction l with
    | nil =>
      rcases hrest with rfl | ⟨c, t, rfl, hc⟩
      · simp
      · simp [List.takeWhile, List.dropWhile, hc]
    | cons b l ih =>
      simp only [List.map_cons, List.cons_append]
      rw [List.takeWhile_cons_of_pos (by simp [digit_not_space]),
        List.dropWhile_cons_of_pos (by simp [digit_not_space])]
      exact ⟨by rw [ih.1], ih.2⟩
  unfold word
  simp only
  rw [h1, (h2 l).1, (h2 l).2]

/-- The flag at position `k` of the text, in the order of writing. -/
def nth (f : Fin 3 → Fin 2 → Bool) (k : Nat) : Bool :=
  (pairs.map (fun d => f d.1 d.2)).getD k false

theorem digit_one (b : Bool) : digit b = '1' ↔ b = true := by cases b <;> decide
theorem digit_zero (b : Bool) : digit b = '0' ↔ b = false := by cases b <;> decide

theorem set_e_obs (p : Plan) (a : Abs) (h : obs p = a) (i : Fin 3) (j : Fin 2) (b : Bool) :
    obs (if digit b = '1' then p.setExchange i j else if digit b = '0' then p.clearExchange i j
      else p) = ⟨set2 a.e i j b, a.g⟩ := by
  subst h
  cases b
  · rw [if_neg (by decide), if_pos (by decide)]; exact obs_step p (.clearExchange i j)
  · rw [if_pos (by decide)]; exact obs_step p (.setExchange i j)

theorem set_g_obs (p : Plan) (a : Abs) (h : obs p = a) (i : Fin 3) (j : Fin 2) (b : Bool) :
    obs (if digit b = '1' then p.setGhost i j else if digit b = '0' then p.clearGhost i j
      else p) = ⟨a.e, set2 a.g i j b⟩ := by
  subst h
  cases b
  · rw [if_neg (by decide), if_pos (by decide)]; exact obs_step p (.clearGhost i j)
  · rw [if_pos (by decide)]; exact obs_step p (.setGhost i j)

/-- Exact effect of reading the text of a plan `p` into any plan `q`: the exchange
flags of `p` are obtained, but both ghost flags of axis `i` get the value of the
`i`-th of the six ghost flags of `p`. -/
theorem read_write (p q : Plan) :
    obs (read p.write q) = ⟨p.exchange, fun i _ => nth p.ghost i.val⟩ := by
  have e1 : word p.write = (pairs.map (fun d => digit (p.exchange d.1 d.2)),
      [' ', ' '] ++ pairs.map (fun d => digit (p.ghost d.1 d.2))) := by
    have := word_digits (pairs.map (fun d => p.exchange d.1 d.2))
      ([' ', ' '] ++ pairs.map (fun d => digit (p.ghost d.1 d.2))) (by simp [pairs])
      (.inr ⟨' ', _, rfl, by decide⟩) [] (by simp)
    rw [List.nil_append, List.map_map] at this
    unfold write
    rw [List.append_assoc]
    exact this
  have e2 : word ([' ', ' '] ++ pairs.map (fun d => digit (p.ghost d.1 d.2)))
      = (pairs.map (fun d => digit (p.ghost d.1 d.2)), []) := by
    have := word_digits (pairs.map (fun d => p.ghost d.1 d.2)) [] (by simp [pairs])
      (.inl rfl) [' ', ' '] (by decide)
    rw [List.append_nil, List.map_map] at this
    exact this
  unfold read
  simp only
  rw [e1]
  simp only
  rw [e2]
  simp only
  have h1 : obs (pairs.foldl (readExchange (pairs.map (fun d => digit (p.exchange d.1 d.2)))) (q, 0)).1
      = { obs q with e := p.exchange } := by
    simp only [pairs, List.map_cons, List.map_nil, List.foldl_cons, List.foldl_nil, readExchange,
      List.getD_cons_zero, List.getD_cons_succ, Nat.zero_add, Nat.reduceAdd]
    refine (set_e_obs _ _ (set_e_obs _ _ (set_e_obs _ _ (set_e_obs _ _ (set_e_obs _ _
      (set_e_obs _ _ rfl _ _ _) _ _ _) _ _ _) _ _ _) _ _ _) _ _ _).trans ?_
    apply Abs.ext_ <;> intro i j
    · simp only [set2]
      fin_cases i <;> fin_cases j <;> simp
    · rfl
  generalize (pairs.foldl (readExchange (pairs.map (fun d => digit (p.exchange d.1 d.2)))) (q, 0)).1
    = r at h1 ⊢
  unfold readGhosts
  simp only [pairs, List.map_cons, List.map_nil, List.foldl_cons, List.foldl_nil, readGhost,
      List.getD_cons_zero, List.getD_cons_succ, Nat.zero_add, Nat.reduceAdd]
  refine (set_g_obs _ _ (set_g_obs _ _ (set_g_obs _ _ (set_g_obs _ _ (set_g_obs _ _
      (set_g_obs _ _ h1 _ _ _) _ _ _) _ _ _) _ _ _) _ _ _) _ _ _).trans ?_
  apply Abs.ext_ <;> intro i j
  · rfl
  · simp only [set2]
    fin_cases i <;> fin_cases j <;> simp [nth, pairs]

/-- **C10, text: the part that holds.** Writing a plan and reading the text into any
other plan reproduces all exchange flags; it reproduces the ghost flags exactly when
each of the six ghost flags equals the one that the reading loop looks at. (The full
statement, that all flags are reproduced, is false: `C10_text_violated`.) -/
theorem C10_text_partial (p q : Plan) :
    (∀ i j, (read p.write q).exchange i j = p.exchange i j) ∧
    ((∀ i j, (read p.write q).ghost i j = p.ghost i j) ↔
      p.ghost 0 1 = p.ghost 0 0 ∧ p.ghost 1 0 = p.ghost 0 0 ∧ p.ghost 1 1 = p.ghost 0 0 ∧
      p.ghost 2 0 = p.ghost 0 0 ∧ p.ghost 2 1 = p.ghost 0 0) := by
  have h := read_write p q
  have he : (read p.write q).exchange = p.exchange := congrArg Abs.e h
  have hg : (read p.write q).ghost = fun i _ => nth p.ghost i.val := congrArg Abs.g h
  refine ⟨fun i j => by rw [he], ?_⟩
  rw [hg]
  simp only [nth, pairs, List.map_cons, List.map_nil]
  constructor
  · intro h
    have h01 := h 0 1; have h10 := h 1 0; have h11 := h 1 1; have h20 := h 2 0; have h21 := h 2 1
    simp at h01 h10 h11 h20 h21
    refine ⟨h01.symm, ?_, ?_, ?_, ?_⟩
    · rw [← h10, ← h01]
    · rw [← h11, ← h01]
    · rw [← h20, ← h10, ← h01]
    · rw [← h21, ← h10, ← h01]
  · rintro ⟨h01, h10, h11, h20, h21⟩ i j
    fin_cases i <;> fin_cases j <;> simp [h01, h10, h11, h20, h21]

/-- The text of a plan does not determine the plan that is read: the ghost flag of
direction (2, 1) is lost. -/
theorem C10_text_violated :
    (new.setGhost 2 1).ghost 2 1 = true ∧
    (read (new.setGhost 2 1).write new).ghost 2 1 = false ∧
    (new.setGhost 0 1).ghost 1 0 = false ∧
    (read (new.setGhost 0 1).write new).ghost 1 0 = true := by
  decide

end Plan

/-! ## C11: atoms of an array -/

section
variable {cap : Nat} {V M C : Type}

/-- What a client sees of one atom. -/
structure Rec (V M C : Type) where
  position : V
  typeId : ℤ
  isGhost : Bool
  force : V
  velocity : V
  mask : M
  plan : Plan
  id : ℤ
  group : BitVec 32
  context : C

@[ext] theorem Rec.ext' {x y : Rec V M C} (h1 : x.position = y.position) (h2 : x.typeId = y.typeId)
    (h3 : x.isGhost = y.isGhost) (h4 : x.force = y.force) (h5 : x.velocity = y.velocity)
    (h6 : x.mask = y.mask) (h7 : x.plan = y.plan) (h8 : x.id = y.id) (h9 : x.group = y.group)
    (h10 : x.context = y.context) : x = y := by
  cases x; cases y; simp_all

def aobs (s : Arr cap V M C) (a : Fin cap) : Rec V M C :=
  { position := s.position a, typeId := s.typeId a, isGhost := s.isGhost a, force := s.force a
    velocity := s.velocity a, mask := s.mask a, plan := s.plan a, id := s.id a
    group := s.group a, context := s.context a }

/-- Intended effect: independent records. -/
def aspec (k : Params V M C) (f : Fin cap → Rec V M C) : AOp cap V M C → Fin cap → Rec V M C
  | .setIsGhost a b => Function.update f a { f a with isGhost := b }
  | .setPosition a v => Function.update f a { f a with position := v }
  | .setTypeId a v => Function.update f a { f a with typeId := v }
  | .setForce a v => Function.update f a { f a with force := v }
  | .setVelocity a v => Function.update f a { f a with velocity := v }
  | .setMask a v => Function.update f a { f a with mask := v }
  | .setPlan a v => Function.update f a { f a with plan := v }
  | .setId a v => Function.update f a { f a with id := v }
  | .setGroup a v => Function.update f a { f a with group := v }
  | .setContext a v => Function.update f a { f a with context := if k.hasContext then v else (f a).context }
  | .assign a b => Function.update f a
      { f b with context := if k.hasContext then (f b).context else (f a).context }
  | .clear a => Function.update f a
      { position := (f a).position, force := (f a).force, velocity := (f a).velocity
        typeId := -1, isGhost := false, id := -1, plan := Plan.new, group := 0#32
        mask := k.emptyMask
        context := if k.hasContext then k.clearedContext else (f a).context }
  | .copyLocalGhost a b => Function.update f a
      { f a with id := (f b).id, typeId := (f b).typeId, plan := (f b).plan
                 position := (f b).position
                 context := if k.hasContext then (f b).context else (f a).context }
  | .copyLocalUpdate a b => Function.update f a { f a with position := (f b).position }
  | .zeroForces => fun a => { f a with force := k.zero }

/-- Invariant: the stored array index is the index of the atom. -/
def Indexed (s : Arr cap V M C) : Prop := ∀ a, s.idx a = a.val

theorem ghost_shift (x : BitVec 32) : (x ||| 1#32) >>> 1 = x >>> 1 := by
  ext i hi
  simp only [BitVec.getElem_ushiftRight, BitVec.getLsbD_or]
  have : BitVec.getLsbD 1#32 (1 + i) = false := by
    rw [BitVec.getLsbD_one]; simp
  rw [this]; simp

theorem local_shift (x : BitVec 32) : (x &&& ~~~ 1#32) >>> 1 = x >>> 1 := by
  ext i hi
  simp only [BitVec.getElem_ushiftRight, BitVec.getLsbD_and, BitVec.getLsbD_not]
  have : BitVec.getLsbD 1#32 (1 + i) = false := by
    rw [BitVec.getLsbD_one]; simp
  rw [this]
  by_cases h : 1 + i < 32
  · simp [h]
  · have : x.getLsbD (1 + i) = false := BitVec.getLsbD_of_ge _ _ (by omega)
    simp [this]

theorem one_eq : (1#32 : BitVec 32) = BitVec.twoPow 32 0 := by decide

theorem ghost_bit (x : BitVec 32) : decide ((x ||| 1#32) &&& 1#32 ≠ 0#32) = true := by
  rw [one_eq, Plan.test_twoPow _ _ (by omega), Plan.getLsbD_or_twoPow _ _ _ (by omega)]; simp

theorem local_bit (x : BitVec 32) : decide ((x &&& ~~~ 1#32) &&& 1#32 ≠ 0#32) = false := by
  rw [one_eq, Plan.test_twoPow _ _ (by omega), Plan.getLsbD_and_not_twoPow _ _ _ (by omega)]; simp

theorem setIsGhost_idx (s : Arr cap V M C) (a : Fin cap) (b : Bool) (c : Fin cap) :
    (s.setIsGhost a b).idx c = s.idx c := by
  unfold Arr.idx Arr.setIsGhost
  simp only
  by_cases h : c = a
  · subst h
    rw [Function.update_self]
    cases b
    · simp only [Bool.false_eq_true, if_false]; rw [local_shift]
    · simp only [if_true]; rw [ghost_shift]
  · rw [Function.update_of_ne h]

theorem setIsGhost_isGhost (s : Arr cap V M C) (a : Fin cap) (b : Bool) (c : Fin cap) :
    (s.setIsGhost a b).isGhost c = if c = a then b else s.isGhost c := by
  unfold Arr.isGhost
  by_cases h : c = a
  · subst h
    have e : (s.setIsGhost c b).localId c
        = if b then s.localId c ||| 1#32 else s.localId c &&& ~~~ 1#32 := by
      simp [Arr.setIsGhost]
    simp only [e]
    cases b
    · simpa using local_bit (s.localId c)
    · simpa using ghost_bit (s.localId c)
  · have e : (s.setIsGhost a b).localId c = s.localId c := by
      simp [Arr.setIsGhost, Function.update_of_ne h]
    simp only [e, if_neg h]

/-- `F` keeps the invariant and acts as `φ` on what clients see. -/
def Refines (F : Arr cap V M C → Arr cap V M C)
    (φ : (Fin cap → Rec V M C) → Fin cap → Rec V M C) : Prop :=
  ∀ s, Indexed s → Indexed (F s) ∧ aobs (F s) = φ (aobs s)

theorem Refines.comp {F G : Arr cap V M C → Arr cap V M C}
    {φ ψ : (Fin cap → Rec V M C) → Fin cap → Rec V M C} (hF : Refines F φ) (hG : Refines G ψ) :
    Refines (fun s => G (F s)) (fun f => ψ (φ f)) := by
  intro s hs
  obtain ⟨h1, h2⟩ := hF s hs
  obtain ⟨h3, h4⟩ := hG _ h1
  exact ⟨h3, by rw [h4, h2]⟩

theorem refines_setIsGhost (a : Fin cap) (g : (Fin cap → Rec V M C) → Bool) :
    Refines (fun s => s.setIsGhost a (g (aobs s)))
      (fun f => Function.update f a { f a with isGhost := g f }) := by
  intro s h
  refine ⟨fun c => by rw [setIsGhost_idx]; exact h c, funext fun c => ?_⟩
  by_cases hc : c = a
  · subst hc
    beta_reduce
    rw [Function.update_self]
    ext <;> simp only [aobs, Arr.velocity, Arr.mask, Arr.plan, Arr.id, Arr.group, Arr.context,
      setIsGhost_idx, setIsGhost_isGhost, if_true] <;> rfl
  · beta_reduce
    rw [Function.update_of_ne hc]
    ext <;> simp only [aobs, Arr.velocity, Arr.mask, Arr.plan, Arr.id, Arr.group, Arr.context,
      setIsGhost_idx, setIsGhost_isGhost, if_neg hc] <;> rfl

theorem refines_setPosition (a : Fin cap) (g : (Fin cap → Rec V M C) → V) :
    Refines (fun s => s.setPosition a (g (aobs s)))
      (fun f => Function.update f a { f a with position := g f }) := by
  intro s h
  refine ⟨fun c => h c, funext fun c => ?_⟩
  by_cases hc : c = a
  · subst hc
    beta_reduce
    rw [Function.update_self]
    apply Rec.ext' <;> first | rfl | exact Function.update_self _ _ _
  · beta_reduce
    rw [Function.update_of_ne hc]
    have hi : s.idx c ≠ s.idx a := by
      rw [h c, h a]; exact fun e => hc (Fin.ext e)
    apply Rec.ext' <;> first | rfl | exact Function.update_of_ne hc _ _ | exact Function.update_of_ne hi _ _

theorem refines_setTypeId (a : Fin cap) (g : (Fin cap → Rec V M C) → ℤ) :
    Refines (fun s => s.setTypeId a (g (aobs s)))
      (fun f => Function.update f a { f a with typeId := g f }) := by
  intro s h
  refine ⟨fun c => h c, funext fun c => ?_⟩
  by_cases hc : c = a
  · subst hc
    beta_reduce
    rw [Function.update_self]
    apply Rec.ext' <;> first | rfl | exact Function.update_self _ _ _
  · beta_reduce
    rw [Function.update_of_ne hc]
    have hi : s.idx c ≠ s.idx a := by
      rw [h c, h a]; exact fun e => hc (Fin.ext e)
    apply Rec.ext' <;> first | rfl | exact Function.update_of_ne hc _ _ | exact Function.update_of_ne hi _ _

theorem refines_setForce (a : Fin cap) (g : (Fin cap → Rec V M C) → V) :
    Refines (fun s => s.setForce a (g (aobs s)))
      (fun f => Function.update f a { f a with force := g f }) := by
  intro s h
  refine ⟨fun c => h c, funext fun c => ?_⟩
  by_cases hc : c = a
  · subst hc
    beta_reduce
    rw [Function.update_self]
    apply Rec.ext' <;> first | rfl | exact Function.update_self _ _ _
  · beta_reduce
    rw [Function.update_of_ne hc]
    have hi : s.idx c ≠ s.idx a := by
      rw [h c, h a]; exact fun e => hc (Fin.ext e)
    apply Rec.ext' <;> first | rfl | exact Function.update_of_ne hc _ _ | exact Function.update_of_ne hi _ _

theorem refines_setVelocity (a : Fin cap) (g : (Fin cap → Rec V M C) → V) :
    Refines (fun s => s.setVelocity a (g (aobs s)))
      (fun f => Function.update f a { f a with velocity := g f }) := by
  intro s h
  refine ⟨fun c => h c, funext fun c => ?_⟩
  by_cases hc : c = a
  · subst hc
    beta_reduce
    rw [Function.update_self]
    apply Rec.ext' <;> first | rfl | exact Function.update_self _ _ _
  · beta_reduce
    rw [Function.update_of_ne hc]
    have hi : s.idx c ≠ s.idx a := by
      rw [h c, h a]; exact fun e => hc (Fin.ext e)
    apply Rec.ext' <;> first | rfl | exact Function.update_of_ne hc _ _ | exact Function.update_of_ne hi _ _

theorem refines_setMask (a : Fin cap) (g : (Fin cap → Rec V M C) → M) :
    Refines (fun s => s.setMask a (g (aobs s)))
      (fun f => Function.update f a { f a with mask := g f }) := by
  intro s h
  refine ⟨fun c => h c, funext fun c => ?_⟩
  by_cases hc : c = a
  · subst hc
    beta_reduce
    rw [Function.update_self]
    apply Rec.ext' <;> first | rfl | exact Function.update_self _ _ _
  · beta_reduce
    rw [Function.update_of_ne hc]
    have hi : s.idx c ≠ s.idx a := by
      rw [h c, h a]; exact fun e => hc (Fin.ext e)
    apply Rec.ext' <;> first | rfl | exact Function.update_of_ne hc _ _ | exact Function.update_of_ne hi _ _

theorem refines_setPlan (a : Fin cap) (g : (Fin cap → Rec V M C) → Plan) :
    Refines (fun s => s.setPlan a (g (aobs s)))
      (fun f => Function.update f a { f a with plan := g f }) := by
  intro s h
  refine ⟨fun c => h c, funext fun c => ?_⟩
  by_cases hc : c = a
  · subst hc
    beta_reduce
    rw [Function.update_self]
    apply Rec.ext' <;> first | rfl | exact Function.update_self _ _ _
  · beta_reduce
    rw [Function.update_of_ne hc]
    have hi : s.idx c ≠ s.idx a := by
      rw [h c, h a]; exact fun e => hc (Fin.ext e)
    apply Rec.ext' <;> first | rfl | exact Function.update_of_ne hc _ _ | exact Function.update_of_ne hi _ _

theorem refines_setId (a : Fin cap) (g : (Fin cap → Rec V M C) → ℤ) :
    Refines (fun s => s.setId a (g (aobs s)))
      (fun f => Function.update f a { f a with id := g f }) := by
  intro s h
  refine ⟨fun c => h c, funext fun c => ?_⟩
  by_cases hc : c = a
  · subst hc
    beta_reduce
    rw [Function.update_self]
    apply Rec.ext' <;> first | rfl | exact Function.update_self _ _ _
  · beta_reduce
    rw [Function.update_of_ne hc]
    have hi : s.idx c ≠ s.idx a := by
      rw [h c, h a]; exact fun e => hc (Fin.ext e)
    apply Rec.ext' <;> first | rfl | exact Function.update_of_ne hc _ _ | exact Function.update_of_ne hi _ _

theorem refines_setGroup (a : Fin cap) (g : (Fin cap → Rec V M C) → BitVec 32) :
    Refines (fun s => s.setGroup a (g (aobs s)))
      (fun f => Function.update f a { f a with group := g f }) := by
  intro s h
  refine ⟨fun c => h c, funext fun c => ?_⟩
  by_cases hc : c = a
  · subst hc
    beta_reduce
    rw [Function.update_self]
    apply Rec.ext' <;> first | rfl | exact Function.update_self _ _ _
  · beta_reduce
    rw [Function.update_of_ne hc]
    have hi : s.idx c ≠ s.idx a := by
      rw [h c, h a]; exact fun e => hc (Fin.ext e)
    apply Rec.ext' <;> first | rfl | exact Function.update_of_ne hc _ _ | exact Function.update_of_ne hi _ _

theorem refines_setContext (a : Fin cap) (g : (Fin cap → Rec V M C) → C) :
    Refines (fun s => s.setContext a (g (aobs s)))
      (fun f => Function.update f a { f a with context := g f }) := by
  intro s h
  refine ⟨fun c => h c, funext fun c => ?_⟩
  by_cases hc : c = a
  · subst hc
    beta_reduce
    rw [Function.update_self]
    apply Rec.ext' <;> first | rfl | exact Function.update_self _ _ _
  · beta_reduce
    rw [Function.update_of_ne hc]
    have hi : s.idx c ≠ s.idx a := by
      rw [h c, h a]; exact fun e => hc (Fin.ext e)
    apply Rec.ext' <;> first | rfl | exact Function.update_of_ne hc _ _ | exact Function.update_of_ne hi _ _

theorem refines_ite (c : Bool) {F : Arr cap V M C → Arr cap V M C}
    {φ : (Fin cap → Rec V M C) → Fin cap → Rec V M C} (hF : Refines F φ) :
    Refines (fun s => if c then F s else s) (fun f => if c then φ f else f) := by
  intro s hs
  cases c
  · exact ⟨hs, rfl⟩
  · exact hF s hs

theorem Refines.congr {F : Arr cap V M C → Arr cap V M C}
    {φ ψ : (Fin cap → Rec V M C) → Fin cap → Rec V M C} (hF : Refines F φ) (h : ∀ f, φ f = ψ f) :
    Refines F ψ := by
  intro s hs
  rw [← h]; exact hF s hs

/-- An operation that changes atom `a` using atom `b`. -/
def Cop (a b : Fin cap) (F : Arr cap V M C → Arr cap V M C)
    (R : Rec V M C → Rec V M C → Rec V M C) : Prop :=
  Refines F (fun f => Function.update f a (R (f a) (f b)))

theorem Cop.seq {F G : Arr cap V M C → Arr cap V M C} {a b : Fin cap}
    {R S : Rec V M C → Rec V M C → Rec V M C} (hF : Cop a b F R) (hG : Cop a b G S) (hb : b ≠ a) :
    Cop a b (fun s => G (F s)) (fun x y => S (R x y) y) := by
  refine (Refines.comp hF hG).congr fun f => ?_
  simp [Function.update_idem, Function.update_of_ne hb]

/-- An operation that changes atom `a` only using itself. -/
def Cop1 (a : Fin cap) (F : Arr cap V M C → Arr cap V M C)
    (R : Rec V M C → Rec V M C) : Prop :=
  Refines F (fun f => Function.update f a (R (f a)))

theorem Cop1.seq {F G : Arr cap V M C → Arr cap V M C} {a : Fin cap}
    {R S : Rec V M C → Rec V M C} (hF : Cop1 a F R) (hG : Cop1 a G S) :
    Cop1 a (fun s => G (F s)) (fun x => S (R x)) := by
  refine (Refines.comp hF hG).congr fun f => ?_
  simp [Function.update_idem]

theorem Refines.skip {F G : Arr cap V M C → Arr cap V M C}
    (hF : Refines F (fun f => f)) (hG : Refines G (fun f => f)) :
    Refines (fun s => G (F s)) (fun f => f) := hF.comp hG

theorem refines_ctx (c : Bool) (a b : Fin cap) :
    Refines (V := V) (M := M) (C := C)
      (fun s => if c then s.setContext a (s.context b) else s)
      (fun f => Function.update f a
        { f a with context := if c then (f b).context else (f a).context }) := by
  refine (refines_ite c (refines_setContext a (fun f => (f b).context))).congr fun f => ?_
  cases c
  · simp
  · rfl

theorem refines_step (k : Params V M C) (op : AOp cap V M C) :
    Refines (fun s => s.step k op) (fun f => aspec k f op) := by
  cases op with
  | setIsGhost a b => exact refines_setIsGhost a (fun _ => b)
  | setPosition a v => exact refines_setPosition a (fun _ => v)
  | setTypeId a v => exact refines_setTypeId a (fun _ => v)
  | setForce a v => exact refines_setForce a (fun _ => v)
  | setVelocity a v => exact refines_setVelocity a (fun _ => v)
  | setMask a v => exact refines_setMask a (fun _ => v)
  | setPlan a v => exact refines_setPlan a (fun _ => v)
  | setId a v => exact refines_setId a (fun _ => v)
  | setGroup a v => exact refines_setGroup a (fun _ => v)
  | setContext a v =>
    refine (refines_ite k.hasContext (refines_setContext a (fun _ => v))).congr fun f => ?_
    simp only [aspec]
    cases k.hasContext
    · simp
    · rfl
  | assign a b =>
    by_cases hb : b = a
    · subst hb
      have h := ((((((((Refines.skip
        ((refines_setPosition (V := V) (M := M) (C := C) b (fun f => (f b).position)).congr (by simp))
        ((refines_setTypeId b (fun f => (f b).typeId)).congr (by simp))).skip
        ((refines_setForce b (fun f => (f b).force)).congr (by simp))).skip
        ((refines_setIsGhost b (fun f => (f b).isGhost)).congr (by simp))).skip
        ((refines_setVelocity b (fun f => (f b).velocity)).congr (by simp))).skip
        ((refines_setId b (fun f => (f b).id)).congr (by simp))).skip
        ((refines_setPlan b (fun f => (f b).plan)).congr (by simp))).skip
        ((refines_setGroup b (fun f => (f b).group)).congr (by simp))).skip
        ((refines_ctx k.hasContext b b).congr (by simp))) |>.skip
        ((refines_setMask b (fun f => (f b).mask)).congr (by simp))
      refine Refines.congr (F := fun s => s.step k (.assign b b)) h fun f => ?_
      simp [aspec]
    · have cposition : Cop (V := V) (M := M) (C := C) a b (fun s => s.setPosition a (s.position b)) (fun x y => { x with position := y.position }) :=
        refines_setPosition a (fun f => (f b).position)
      have ctypeId : Cop (V := V) (M := M) (C := C) a b (fun s => s.setTypeId a (s.typeId b)) (fun x y => { x with typeId := y.typeId }) :=
        refines_setTypeId a (fun f => (f b).typeId)
      have cforce : Cop (V := V) (M := M) (C := C) a b (fun s => s.setForce a (s.force b)) (fun x y => { x with force := y.force }) :=
        refines_setForce a (fun f => (f b).force)
      have cisGhost : Cop (V := V) (M := M) (C := C) a b (fun s => s.setIsGhost a (s.isGhost b)) (fun x y => { x with isGhost := y.isGhost }) :=
        refines_setIsGhost a (fun f => (f b).isGhost)
      have cvelocity : Cop (V := V) (M := M) (C := C) a b (fun s => s.setVelocity a (s.velocity b)) (fun x y => { x with velocity := y.velocity }) :=
        refines_setVelocity a (fun f => (f b).velocity)
      have cid : Cop (V := V) (M := M) (C := C) a b (fun s => s.setId a (s.id b)) (fun x y => { x with id := y.id }) :=
        refines_setId a (fun f => (f b).id)
      have cplan : Cop (V := V) (M := M) (C := C) a b (fun s => s.setPlan a (s.plan b)) (fun x y => { x with plan := y.plan }) :=
        refines_setPlan a (fun f => (f b).plan)
      have cgroup : Cop (V := V) (M := M) (C := C) a b (fun s => s.setGroup a (s.group b)) (fun x y => { x with group := y.group }) :=
        refines_setGroup a (fun f => (f b).group)
      have cmask : Cop (V := V) (M := M) (C := C) a b (fun s => s.setMask a (s.mask b)) (fun x y => { x with mask := y.mask }) :=
        refines_setMask a (fun f => (f b).mask)
      have ccontext : Cop (V := V) (M := M) (C := C) a b (fun s => if k.hasContext then s.setContext a (s.context b) else s)
          (fun x y => { x with context := if k.hasContext then y.context else x.context }) :=
        refines_ctx k.hasContext a b
      have h := ((((((((cposition.seq ctypeId hb).seq cforce hb).seq cisGhost hb).seq cvelocity hb).seq
        cid hb).seq cplan hb).seq cgroup hb).seq ccontext hb).seq cmask hb
      exact Refines.congr (F := fun s => s.step k (.assign a b)) h fun f => rfl
  | clear a =>
    have ctypeId : Cop1 (V := V) (M := M) (C := C) a (fun s => s.setTypeId a (-1)) (fun x => { x with typeId := -1 }) :=
      refines_setTypeId a (fun _ => -1)
    have cisGhost : Cop1 (V := V) (M := M) (C := C) a (fun s => s.setIsGhost a (false)) (fun x => { x with isGhost := false }) :=
      refines_setIsGhost a (fun _ => false)
    have cid : Cop1 (V := V) (M := M) (C := C) a (fun s => s.setId a (-1)) (fun x => { x with id := -1 }) :=
      refines_setId a (fun _ => -1)
    have cplan : Cop1 (V := V) (M := M) (C := C) a (fun s => s.setPlan a (Plan.new)) (fun x => { x with plan := Plan.new }) :=
      refines_setPlan a (fun _ => Plan.new)
    have cgroup : Cop1 (V := V) (M := M) (C := C) a (fun s => s.setGroup a (0#32)) (fun x => { x with group := 0#32 }) :=
      refines_setGroup a (fun _ => 0#32)
    have cmask : Cop1 (V := V) (M := M) (C := C) a (fun s => s.setMask a (k.emptyMask)) (fun x => { x with mask := k.emptyMask }) :=
      refines_setMask a (fun _ => k.emptyMask)
    have ccontext : Cop1 (V := V) (M := M) (C := C) a (fun s => if k.hasContext then s.setContext a k.clearedContext else s)
        (fun x => { x with context := if k.hasContext then k.clearedContext else x.context }) :=
      (refines_ite k.hasContext (refines_setContext a (fun _ => k.clearedContext))).congr (by
        intro f
        cases k.hasContext
        · simp
        · rfl)
    have h := (((((ctypeId.seq cisGhost).seq cid).seq cplan).seq cgroup).seq ccontext).seq cmask
    exact Refines.congr (F := fun s => s.step k (.clear a)) h fun f => rfl
  | copyLocalGhost a b =>
    by_cases hb : b = a
    · subst hb
      have h := (((Refines.skip
        ((refines_setId (V := V) (M := M) (C := C) b (fun f => (f b).id)).congr (by simp))
        ((refines_setTypeId b (fun f => (f b).typeId)).congr (by simp))).skip
        ((refines_setPlan b (fun f => ((f b).plan).setFlags ((f b).plan).flags)).congr
          (by intro f; simp [Plan.setFlags]))).skip
        ((refines_setPosition b (fun f => (f b).position)).congr (by simp))).skip
        ((refines_ctx k.hasContext b b).congr (by simp))
      refine Refines.congr (F := fun s => s.step k (.copyLocalGhost b b)) h fun f => ?_
      simp [aspec]
    · have cposition : Cop (V := V) (M := M) (C := C) a b (fun s => s.setPosition a (s.position b)) (fun x y => { x with position := y.position }) :=
        refines_setPosition a (fun f => (f b).position)
      have ctypeId : Cop (V := V) (M := M) (C := C) a b (fun s => s.setTypeId a (s.typeId b)) (fun x y => { x with typeId := y.typeId }) :=
        refines_setTypeId a (fun f => (f b).typeId)
      have cid : Cop (V := V) (M := M) (C := C) a b (fun s => s.setId a (s.id b)) (fun x y => { x with id := y.id }) :=
        refines_setId a (fun f => (f b).id)
      have cplan : Cop (V := V) (M := M) (C := C) a b (fun s => s.setPlan a ((s.plan a).setFlags (s.plan b).flags))
          (fun x y => { x with plan := x.plan.setFlags y.plan.flags }) :=
        refines_setPlan a (fun f => ((f a).plan).setFlags ((f b).plan).flags)
      have ccontext : Cop (V := V) (M := M) (C := C) a b (fun s => if k.hasContext then s.setContext a (s.context b) else s)
          (fun x y => { x with context := if k.hasContext then y.context else x.context }) :=
        refines_ctx k.hasContext a b
      have h := (((cid.seq ctypeId hb).seq cplan hb).seq cposition hb).seq ccontext hb
      exact Refines.congr (F := fun s => s.step k (.copyLocalGhost a b)) h fun f => rfl
  | copyLocalUpdate a b => exact refines_setPosition a (fun f => (f b).position)
  | zeroForces =>
    intro s hs
    exact ⟨fun c => hs c, rfl⟩

theorem alloc_indexed (k : Params V M C) (hcap : cap ≤ 2 ^ 30) (vel0 : Nat → V) :
    Indexed (alloc k cap vel0) := by
  intro a
  have ha := a.isLt
  have h2 : a.val * 2 < 2 ^ 32 := by omega
  unfold Arr.idx alloc
  simp only [BitVec.toNat_ushiftRight, BitVec.toNat_ofNat, Nat.shiftLeft_eq,
    Nat.shiftRight_eq_div_pow, Nat.pow_one]
  rw [Nat.mod_eq_of_lt h2]
  omega

/-- The records of a newly allocated array. -/
def fresh (k : Params V M C) (vel0 : Nat → V) (a : Fin cap) : Rec V M C :=
  { position := k.zero, typeId := -1, isGhost := false, force := k.zero, velocity := vel0 a.val
    mask := k.emptyMask, plan := Plan.new, id := -1, group := 0#32, context := k.clearedContext }

/-- **C11.** For every capacity for which the shifted index fits an `int`, and every
sequence of calls, the atoms of an array behave as independent records: the ghost
flag and each of the pseudo-members kept in separate arrays has the value last
given to it, whatever is done to the ghost flag or to other atoms. -/
theorem C11_independent_records (k : Params V M C) (hcap : cap ≤ 2 ^ 30) (vel0 : Nat → V)
    (ops : List (AOp cap V M C)) (a : Fin cap) :
    aobs ((alloc k cap vel0).run k ops) a = (ops.foldl (aspec k) (fresh k vel0)) a ∧
    ((alloc k cap vel0).run k ops).idx a = a.val := by
  have key : ∀ (ops : List (AOp cap V M C)) (s : Arr cap V M C), Indexed s →
      Indexed (s.run k ops) ∧ aobs (s.run k ops) = ops.foldl (aspec k) (aobs s) := by
    intro ops
    induction ops with
    | nil => intro s hs; exact ⟨hs, rfl⟩
    | cons op ops ih =>
      intro s hs
      obtain ⟨h1, h2⟩ := refines_step k op s hs
      obtain ⟨h3, h4⟩ := ih _ h1
      refine ⟨h3, ?_⟩
      simp only [Arr.run, List.foldl_cons] at h4 ⊢
      rw [h4, h2]
  have h0 := alloc_indexed k hcap vel0
  obtain ⟨h1, h2⟩ := key ops _ h0
  refine ⟨?_, h1 a⟩
  rw [h2]
  have e : aobs (alloc k cap vel0) = fresh k vel0 := by
    funext c
    have hv : (alloc k cap vel0).velocity c = vel0 c.val := by
      unfold Arr.velocity; rw [h0 c]; rfl
    have hg : (alloc k cap vel0).isGhost c = false := by
      unfold Arr.isGhost
      rw [one_eq, Plan.test_twoPow _ _ (by omega)]
      show (BitVec.ofNat 32 (c.val <<< 1)).getLsbD 0 = false
      rw [BitVec.getLsbD_ofNat]
      simp
    ext
    · rfl
    · rfl
    · exact hg
    · rfl
    · exact hv
    all_goals rfl
  rw [e]

def demoParams : Params ℤ Unit Unit := ⟨0, (), (), true⟩

example : (((alloc demoParams 3 (fun _ => 0)).run demoParams
    [.setIsGhost 1 true, .setVelocity 1 7, .setVelocity 2 9, .setIsGhost 2 true, .assign 0 1,
     .setIsGhost 1 false]).velocity 0,
    ((alloc demoParams 3 (fun _ => 0)).run demoParams
    [.setIsGhost 1 true, .setVelocity 1 7, .setVelocity 2 9, .setIsGhost 2 true, .assign 0 1,
     .setIsGhost 1 false]).isGhost 0) = (7, true) := by
  decide

end

/-! ## C46: masks -/

namespace Mask
variable {K : Type} [DecidableEq K]

/-- Intended behaviour: a list of at most four distinct atoms; the flag tells
whether the call is accepted. -/
def spec (l : List K) : Op K → List K × Bool
  | .append k => if l.length < 4 ∧ k ∉ l then (l ++ [k], true) else (l, false)
  | .clear => ([], true)

/-- `m` represents the list `l`. -/
structure Repr (m : Mask K) (l : List K) : Prop where
  size : m.size = l.length
  slot : ∀ i, i < l.length → m.slots i = l[i]?
  le : l.length ≤ 4
  nodup : l.Nodup

theorem Repr.isMasked {m : Mask K} {l : List K} (h : Repr m l) (k : K) :
    m.isMasked k = decide (k ∈ l) := by
  unfold Mask.isMasked
  rw [Bool.eq_iff_iff, List.any_eq_true, decide_eq_true_eq, List.mem_iff_getElem?]
  constructor
  · rintro ⟨i, hi, e⟩
    rw [List.mem_range, h.size] at hi
    exact ⟨i, by rw [← h.slot i hi]; simpa using e⟩
  · rintro ⟨i, hi⟩
    have hlt : i < l.length := by
      by_contra hc
      rw [List.getElem?_eq_none (by omega)] at hi
      cases hi
    exact ⟨i, by rw [List.mem_range, h.size]; exact hlt, by simp [h.slot i hlt, hi]⟩

theorem repr_step {m : Mask K} {l : List K} (h : Repr m l) (op : Op K) :
    Repr (step m op).1 (spec l op).1 ∧ (step m op).2 = (spec l op).2 := by
  cases op with
  | clear => exact ⟨⟨rfl, by simp [spec], by simp [spec], by simp [spec]⟩, rfl⟩
  | append k =>
    simp only [step, append, spec]
    have h4 : maskCapacity = 4 := rfl
    by_cases hs : m.size ≥ maskCapacity
    · rw [if_pos hs, if_neg (by rw [← h.size]; omega)]
      exact ⟨h, rfl⟩
    · rw [if_neg hs, h.isMasked]
      by_cases hk : k ∈ l
      · rw [if_pos (by simpa using hk), if_neg (by tauto)]
        exact ⟨h, rfl⟩
      · have hlen : l.length < 4 := by rw [← h.size]; omega
        rw [if_neg (by simpa using hk), if_pos ⟨hlen, hk⟩]
        refine ⟨⟨by simp [h.size], ?_, by simp; omega, ?_⟩, rfl⟩
        · intro i hi
          simp only [List.length_append, List.length_singleton] at hi
          simp only [h.size]
          by_cases he : i = l.length
          · subst he; simp
          · rw [Function.update_of_ne he, List.getElem?_append_left (by omega)]
            exact h.slot i (by omega)
        · rw [List.nodup_append]
          exact ⟨h.nodup, by simp, by rintro a ha b hb rfl; simp at hb; exact hk (hb ▸ ha)⟩

/-- States and answers along a history. -/
def runM (m : Mask K) : List (Op K) → Mask K × List Bool
  | [] => (m, [])
  | op :: ops => let r := runM (step m op).1 ops; (r.1, (step m op).2 :: r.2)

def runS (l : List K) : List (Op K) → List K × List Bool
  | [] => (l, [])
  | op :: ops => let r := runS (spec l op).1 ops; (r.1, (spec l op).2 :: r.2)

/-- **C46.** After any history of appends and clears, membership is answered exactly
for the atoms of the accepted appends since the last clear, the size is their
number, and each call is accepted iff there is room and the atom is new. -/
theorem C46_mask (ops : List (Op K)) :
    (runM empty ops).2 = (runS [] ops).2 ∧
    (runM empty ops).1.size = (runS [] ops).1.length ∧ (runS [] ops).1.Nodup ∧
    (runS [] ops).1.length ≤ 4 ∧
    (∀ k, (runM empty ops).1.isMasked k = true ↔ k ∈ (runS [] ops).1) ∧
    (∀ i, i < (runS [] ops).1.length → (runM empty ops).1.slots i = (runS [] ops).1[i]?) := by
  have key : ∀ (ops : List (Op K)) (m : Mask K) (l : List K), Repr m l →
      Repr (runM m ops).1 (runS l ops).1 ∧ (runM m ops).2 = (runS l ops).2 := by
    intro ops
    induction ops with
    | nil => intro m l h; exact ⟨h, rfl⟩
    | cons op ops ih =>
      intro m l h
      obtain ⟨h1, h2⟩ := repr_step h op
      obtain ⟨h3, h4⟩ := ih _ _ h1
      exact ⟨h3, by simp only [runM, runS]; rw [h2, h4]⟩
  obtain ⟨h1, h2⟩ := key ops empty [] ⟨rfl, by simp, by simp, by simp⟩
  exact ⟨h2, h1.size, h1.nodup, h1.le, fun k => by rw [h1.isMasked]; simp, h1.slot⟩

example : (runM (empty : Mask ℤ) [.append 3, .append 5, .append 3, .append 6, .append 7, .append 8]).2
    = [true, true, false, true, true, false] := by decide

end Mask

end Verif.DdChem
