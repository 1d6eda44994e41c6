/-
Execution of the programs of replica exchange, continued: the whole move.
-/
import Verif.Replica.Run

set_option autoImplicit false

namespace Verif.Replica

open Verif.Cpp Verif.Cpp.Out Verif.Cpp.Net Verif.McMoves

theorem perm_inv_apply (σ : Equiv.Perm ℕ) (p : ℕ) : σ (σ⁻¹ p) = p := σ.apply_symm_apply p

/-- No messages. -/
def noMsg : ℕ → ℕ → ℕ → List Msg := fun _ _ _ => []

/-- Ranks other than 0. -/
abbrev others (n : ℕ) : List ℕ := List.range' 1 (n - 1)

theorem mem_others {n p : ℕ} : p ∈ others n ↔ p ≠ 0 ∧ p < n := by
  rw [List.mem_range'_1]; omega

/-- Ranks that exchange something. -/
def movers (n : ℕ) (σ : Equiv.Perm ℕ) : List ℕ := (List.range n).filter (fun p => σ p ≠ p)

theorem mem_movers {n : ℕ} {σ : Equiv.Perm ℕ} {p : ℕ} : p ∈ movers n σ ↔ p < n ∧ σ p ≠ p := by
  simp [movers]

theorem movers_nodup (n : ℕ) (σ : Equiv.Perm ℕ) : (movers n σ).Nodup :=
  List.nodup_range.filter _

theorem movers_apply {n : ℕ} {σ : Equiv.Perm ℕ} (hσ : Fixes n σ) {p : ℕ} (h : p ∈ movers n σ) :
    σ p ∈ movers n σ := by
  rw [mem_movers] at h ⊢
  exact ⟨hσ.lt h.1, fun e => h.2 (σ.injective e)⟩

theorem movers_inv {n : ℕ} {σ : Equiv.Perm ℕ} (hσ : Fixes n σ) {p : ℕ} (h : p ∈ movers n σ) :
    σ⁻¹ p ∈ movers n σ := by
  rw [mem_movers] at h ⊢
  refine ⟨hσ.inv.lt h.1, fun e => h.2 ?_⟩
  rw [perm_inv_apply] at e
  conv_lhs => rw [e]
  exact perm_inv_apply σ p

theorem movers_chan {n : ℕ} {σ : Equiv.Perm ℕ} (hσ : Fixes n σ) (t : ℕ) (m : ℕ → Msg) :
    popAll (pushAll noMsg (· ∈ movers n σ) σ t m) (· ∈ movers n σ) (σ⁻¹ : Equiv.Perm ℕ) t
      = noMsg := by
  funext x y s
  unfold popAll pushAll noMsg
  by_cases h : x ∈ movers n σ ∧ y = σ x ∧ s = t
  · obtain ⟨h1, h2, h3⟩ := h
    subst h2; subst h3
    simp [h1, movers_apply hσ h1]
  · rw [if_neg h]
    split <;> rfl

theorem movers_head {n : ℕ} {σ : Equiv.Perm ℕ} (hσ : Fixes n σ) (t : ℕ) (m : ℕ → Msg) {p : ℕ}
    (hp : p ∈ movers n σ) :
    pushAll noMsg (· ∈ movers n σ) σ t m (σ⁻¹ p) p t = [m (σ⁻¹ p)] := by
  unfold pushAll
  rw [if_pos ⟨movers_inv hσ hp, (perm_inv_apply σ p).symm, rfl⟩]
  rfl

/-- One round of sending to `σ p` and receiving from its inverse, for all ranks that
exchange something. -/
theorem reach_round {n : ℕ} {σ : Equiv.Perm ℕ} (hσ : Fixes n σ) (t : ℕ) (m : ℕ → Msg)
    (k : ℕ → Msg → Prog) (Y : ℕ → Prog) :
    Reach ⟨fun p => if p ∈ movers n σ then .send (σ p) t (m p) (.recv (σ⁻¹ p) t (k p)) else Y p,
        noMsg⟩
      ⟨fun p => if p ∈ movers n σ then k p (m (σ⁻¹ p)) else Y p, noMsg⟩ := by
  obtain ⟨n1, h1⟩ := steps_send (movers n σ) (movers_nodup n σ)
    (⟨fun p => if p ∈ movers n σ then .send (σ p) t (m p) (.recv (σ⁻¹ p) t (k p)) else Y p,
        noMsg⟩ : Conf ℕ Msg (Out Res)) σ t m (fun p => .recv (σ⁻¹ p) t (k p))
    (fun p hp => by dsimp only; rw [if_pos hp])
  obtain ⟨n2, h2⟩ := steps_recv (movers n σ) (movers_nodup n σ)
    (⟨fun p => if p ∈ movers n σ then .recv (σ⁻¹ p) t (k p) else
        if p ∈ movers n σ then .send (σ p) t (m p) (.recv (σ⁻¹ p) t (k p)) else Y p,
        pushAll noMsg (· ∈ movers n σ) σ t m⟩ : Conf ℕ Msg (Out Res))
    (σ⁻¹ : Equiv.Perm ℕ) t (fun p => m (σ⁻¹ p)) k
    (fun p hp => by dsimp only; rw [if_pos hp])
    (fun p hp => ⟨[], by dsimp only; rw [movers_head hσ t m hp]⟩)
  refine Reach.trans ⟨n1, h1⟩ (Reach.trans ⟨n2, h2⟩ ?_)
  dsimp only
  rw [movers_chan hσ]
  have : (fun p => if p ∈ movers n σ then k p (m (σ⁻¹ p)) else
      if p ∈ movers n σ then .recv (σ⁻¹ p) t (k p) else
        if p ∈ movers n σ then .send (σ p) t (m p) (.recv (σ⁻¹ p) t (k p)) else Y p) =
      (fun p => if p ∈ movers n σ then k p (m (σ⁻¹ p)) else Y p) := by
    funext p
    split
    · rfl
    · rfl
  rw [this]
  exact Reach.rfl' _

/-- State of a rank with the counters after the move. -/
def counted (rep : ℕ → Rep) (nAtt acc : ℕ) (p : ℕ) : Rep :=
  if p = 0 then { rep 0 with attempt := (rep 0).attempt + nAtt, accept := (rep 0).accept + acc }
  else rep p

/-- Result on a rank that exchanges something, whatever the numbers of atoms. -/
def moved (buf : ℕ → List Vec) (rep : ℕ → Rep) (σ : Equiv.Perm ℕ) (nAtt acc p : ℕ) : Out Res := do
  let b ← received (buf p) (rep p).pos.length (rep (σ⁻¹ p)).pos
  ok ⟨adopt (counted rep nAtt acc p) (rep (σ⁻¹ p)).lengths b, σ p, some (σ p, σ⁻¹ p)⟩

/-- The end of the move, whatever the numbers of atoms. -/
def finalGen (n : ℕ) (buf : ℕ → List Vec) (rep : ℕ → Rep) (σ : Equiv.Perm ℕ) (nAtt acc : ℕ) :
    Conf ℕ Msg (Out Res) where
  proc p :=
    if p < n then
      if σ p = p then .done (ok ⟨counted rep nAtt acc p, p, none⟩)
      else .done (moved buf rep σ nAtt acc p)
    else .done Out.throw
  chan := noMsg

/-- The end of the move. -/
def final (n : ℕ) (rep : ℕ → Rep) (σ : Equiv.Perm ℕ) (nAtt acc : ℕ) : Conf ℕ Msg (Out Res) where
  proc p :=
    if p < n then
      .done (ok ⟨{ counted rep nAtt acc p with
          lengths := (rep (σ⁻¹ p)).lengths, pos := (rep (σ⁻¹ p)).pos }, σ p,
        if σ p = p then none else some (σ p, σ⁻¹ p)⟩)
    else .done Out.throw
  chan := noMsg

theorem received_same (buf : List Vec) (l : List Vec) :
    ∃ b, received buf l.length l = ok (l ++ b) :=
  ⟨_, by unfold received; rw [check_true (le_refl _)]; rfl⟩

theorem counted_lengths (rep : ℕ → Rep) (nAtt acc p : ℕ) :
    (counted rep nAtt acc p).lengths = (rep p).lengths := by
  unfold counted; split
  · rename_i h; rw [h]
  · rfl

theorem counted_pos (rep : ℕ → Rep) (nAtt acc p : ℕ) :
    (counted rep nAtt acc p).pos = (rep p).pos := by
  unfold counted; split
  · rename_i h; rw [h]
  · rfl

theorem finalGen_eq {n : ℕ} {σ : Equiv.Perm ℕ} (hσ : Fixes n σ) (buf : ℕ → List Vec)
    (rep : ℕ → Rep) (nAtt acc nAtom : ℕ) (hpos : ∀ p, p < n → (rep p).pos.length = nAtom) :
    finalGen n buf rep σ nAtt acc = final n rep σ nAtt acc := by
  unfold finalGen final
  congr 1
  funext p
  by_cases hpn : p < n
  · by_cases hs : σ p = p
    · have hs' : σ⁻¹ p = p := by rw [Equiv.Perm.inv_eq_iff_eq]; exact hs.symm
      simp only [if_pos hpn, if_true, hs', ← counted_lengths rep nAtt acc,
        ← counted_pos rep nAtt acc, hs]
    · simp only [if_pos hpn, if_neg hs]
      have hlen : (rep p).pos.length = (rep (σ⁻¹ p)).pos.length := by
        rw [hpos p hpn, hpos _ (hσ.inv.lt hpn)]
      unfold moved
      rw [hlen]
      obtain ⟨b, hb⟩ := received_same (buf p) (rep (σ⁻¹ p)).pos
      rw [hb, ok_bind]
      unfold adopt
      rw [counted_pos, hlen, List.take_left']
      rfl
  · simp only [if_neg hpn]

/-- The exchange of boundaries and positions. -/
theorem reach_exchange {n : ℕ} {σ : Equiv.Perm ℕ} (hσ : Fixes n σ) (buf : ℕ → List Vec)
    (rep : ℕ → Rep) (nAtt acc : ℕ) :
    Reach ⟨fun p => if p < n then
        exchange p (buf p) (counted rep nAtt acc p) (σ p) (σ⁻¹ p) else .done Out.throw, noMsg⟩
      (finalGen n buf rep σ nAtt acc) := by
  have hl : ∀ p, (counted rep nAtt acc p).lengths = (rep p).lengths := by
    intro p; unfold counted; split
    · rename_i h; rw [h]
    · rfl
  have hp : ∀ p, (counted rep nAtt acc p).pos = (rep p).pos := by
    intro p; unfold counted; split
    · rename_i h; rw [h]
    · rfl
  let Y : ℕ → Prog := fun p => if p < n then .done (ok ⟨counted rep nAtt acc p, σ p, none⟩)
    else .done Out.throw
  let k1 : ℕ → Msg → Prog := fun p => fun
    | .vec L => exchangePos (buf p) (counted rep nAtt acc p) L (σ p) (σ⁻¹ p)
    | _ => .done Out.ub
  have e1 : (fun p => if p < n then
        exchange p (buf p) (counted rep nAtt acc p) (σ p) (σ⁻¹ p) else .done Out.throw) =
      (fun p => if p ∈ movers n σ then .send (σ p) 1 (.vec (rep p).lengths)
        (.recv (σ⁻¹ p) 1 (k1 p)) else Y p) := by
    funext p
    by_cases hpn : p < n
    · by_cases hs : σ p = p
      · have hs' : σ⁻¹ p = p := by rw [Equiv.Perm.inv_eq_iff_eq]; exact hs.symm
        rw [if_pos hpn, if_neg (by rw [mem_movers]; tauto)]
        unfold exchange
        rw [if_pos (Or.inr hs)]
        simp only [Y, if_pos hpn]
      · have hs' : σ⁻¹ p ≠ p := by
          rw [Ne, Equiv.Perm.inv_eq_iff_eq]; exact fun h => hs h.symm
        rw [if_pos hpn, if_pos (by rw [mem_movers]; tauto)]
        unfold exchange
        rw [if_neg (by tauto), hl]
        rfl
    · rw [if_neg hpn, if_neg (by rw [mem_movers]; tauto)]
      simp only [Y, if_neg hpn]
  rw [e1]
  refine (reach_round hσ 1 _ k1 Y).trans ?_
  let k2 : ℕ → Msg → Prog := fun p => fun
    | .positions l => .done (do
        let b ← received (buf p) (counted rep nAtt acc p).pos.length l
        ok ⟨adopt (counted rep nAtt acc p) (rep (σ⁻¹ p)).lengths b, σ p, some (σ p, σ⁻¹ p)⟩)
    | _ => .done Out.ub
  have e2 : (fun p => if p ∈ movers n σ then k1 p (.vec (rep (σ⁻¹ p)).lengths) else Y p) =
      (fun p => if p ∈ movers n σ then .send (σ p) 2 (.positions (rep p).pos)
        (.recv (σ⁻¹ p) 2 (k2 p)) else Y p) := by
    funext p
    split
    · simp only [k1, exchangePos, hp]
      simp only [k2, hp]
      congr 1
    · rfl
  rw [e2]
  refine (reach_round hσ 2 _ k2 Y).trans ?_
  have e3 : (⟨fun p => if p ∈ movers n σ then k2 p (.positions (rep (σ⁻¹ p)).pos) else Y p, noMsg⟩ :
      Conf ℕ Msg (Out Res)) = finalGen n buf rep σ nAtt acc := by
    unfold finalGen
    congr 1
    funext p
    by_cases hpn : p < n
    · by_cases hs : σ p = p
      · rw [if_neg (by rw [mem_movers]; tauto), if_pos hpn]
        simp only [Y, if_pos hpn, if_true, hs]
      · rw [if_pos (by rw [mem_movers]; tauto), if_pos hpn]
        simp only [k2, if_neg hs, hp]
        rfl
    · rw [if_neg (by rw [mem_movers]; tauto), if_neg hpn]
      simp only [Y, if_neg hpn]
  rw [e3]
  exact Reach.rfl' _

/-- The rest of the program of a rank other than 0, after sending its data. -/
def wait1 (my : ℕ) (buf : List Vec) (rep : Rep) : Msg → Prog
  | .int sendPt => .recv 0 1 fun
        | .int recvPt => exchange my buf rep sendPt recvPt
        | _ => .done Out.ub
  | _ => .done Out.ub

/-- The whole move. -/
theorem reach_final {n : ℕ} (hn : 2 ≤ n) (nPar : ℕ) (der par : ℕ → List ℝ) (buf : ℕ → List Vec)
    (rep : ℕ → Rep) (ds : List Draw) (hd : ∀ d ∈ ds, d.Valid n)
    (h1 : ∀ p, p < n → (der p).length = nPar) (h2 : ∀ p, p < n → (par p).length = nPar)
    {σ : Equiv.Perm ℕ} {acc : ℕ} (hσ : Fixes n σ)
    (hs : sample n nPar der par ds = ok (⇑σ, acc)) :
    Reach (start n nPar der par buf rep ds) (finalGen n buf rep σ ds.length acc) := by
  -- data are sent to rank 0
  obtain ⟨n1, r1⟩ := steps_send (others n) (List.nodup_range' ..) (start n nPar der par buf rep ds)
    (fun _ => 0) dataTag (fun p => .data (der p) (par p))
    (fun p => .recv 0 0 (wait1 p (buf p) (rep p)))
    (fun p hp => by
      rw [mem_others] at hp
      simp only [start, if_pos hp.2, if_pos hp.1, worker]
      rfl)
  refine Reach.trans ⟨n1, r1⟩ ?_
  have hz : (0 : ℕ) < n := by omega
  -- rank 0 receives them
  have r2 := reach_gather nPar der par (others n) (List.nodup_range' ..)
    (fun _ => der 0, fun _ => par 0)
    (fun acc => afterSample n (buf 0) (rep 0) ds.length (sample n nPar acc.1 acc.2 ds))
    ⟨fun p => if p ∈ others n then .recv 0 0 (wait1 p (buf p) (rep p))
        else (start n nPar der par buf rep ds).proc p,
      pushAll (start n nPar der par buf rep ds).chan (· ∈ others n) (fun _ => 0) dataTag
        (fun p => .data (der p) (par p))⟩
    (by
      dsimp only
      rw [if_neg (by rw [mem_others]; tauto)]
      simp only [start, if_pos hz]
      rfl)
    (fun i hi => by
      simp [pushAll, hi, start])
    (fun i hi => h1 i (mem_others.1 hi).2) (fun i hi => h2 i (mem_others.1 hi).2)
  refine r2.trans ?_
  dsimp only
  have es : sample n nPar (fun i => if i ∈ others n then der i else der 0)
      (fun i => if i ∈ others n then par i else par 0) ds = ok (⇑σ, acc) := by
    rw [← hs]
    refine sample_congr hn nPar ?_ ?_ ds hd
    · intro i hi
      by_cases h0 : i = 0
      · subst h0; split <;> rfl
      · rw [if_pos (mem_others.2 ⟨h0, hi⟩)]
    · intro i hi
      by_cases h0 : i = 0
      · subst h0; split <;> rfl
      · rw [if_pos (mem_others.2 ⟨h0, hi⟩)]
  rw [es]
  -- rank 0 sends the partners
  let c2 : Conf ℕ Msg (Out Res) := ⟨fun p => if p ∈ others n then .recv 0 0 (wait1 p (buf p) (rep p))
      else if p < n then distribute σ (List.range n) none none
        (finish (buf 0) (counted rep ds.length acc 0)) else .done Out.throw, noMsg⟩
  have e2 : (⟨Function.update (fun p => if p ∈ others n then .recv 0 0 (wait1 p (buf p) (rep p))
        else (start n nPar der par buf rep ds).proc p) 0
          (afterSample n (buf 0) (rep 0) ds.length (ok (⇑σ, acc))),
        fun x y s => if x ∈ others n ∧ y = 0 ∧ s = dataTag then [] else
          pushAll (start n nPar der par buf rep ds).chan (· ∈ others n) (fun _ => 0) dataTag
            (fun p => .data (der p) (par p)) x y s⟩ : Conf ℕ Msg (Out Res)) = c2 := by
    simp only [c2]
    congr 1
    · funext p
      by_cases hp0 : p = 0
      · subst hp0
        rw [Function.update_self, if_neg (by rw [mem_others]; tauto), if_pos hz]
        rfl
      · rw [Function.update_of_ne hp0]
        by_cases hpo : p ∈ others n
        · rw [if_pos hpo, if_pos hpo]
        · have hpn : ¬ p < n := fun h => hpo (mem_others.2 ⟨hp0, h⟩)
          rw [if_neg hpo, if_neg hpo, if_neg hpn]
          simp only [start, if_neg hpn]
    · funext x y s
      by_cases h : x ∈ others n ∧ y = 0 ∧ s = dataTag
      · rw [if_pos h]; rfl
      · rw [if_neg h]
        simp only [pushAll, if_neg h]
        rfl
  rw [e2]
  have r3 := reach_distribute σ (List.range n) List.nodup_range none none
    (finish (buf 0) (counted rep ds.length acc 0)) c2 (by
      simp only [c2]
      rw [if_neg (by rw [mem_others]; tauto), if_pos hz])
  refine r3.trans ?_
  rw [if_pos (List.mem_range.2 hz), if_pos (List.mem_range.2 (hσ.inv.lt hz))]
  simp only [c2]
  -- the other ranks receive them
  let c3 : Conf ℕ Msg (Out Res) := ⟨fun p => if p ∈ others n then .recv 0 0 (wait1 p (buf p) (rep p))
      else if p < n then exchange 0 (buf 0) (counted rep ds.length acc 0) (σ 0) (σ⁻¹ 0)
        else .done Out.throw, told noMsg σ (List.range n)⟩
  have e3 : (⟨Function.update (fun p => if p ∈ others n then .recv 0 0 (wait1 p (buf p) (rep p))
      else if p < n then distribute σ (List.range n) none none
        (finish (buf 0) (counted rep ds.length acc 0)) else .done Out.throw) 0
        (finish (buf 0) (counted rep ds.length acc 0) (some (σ 0)) (some (σ⁻¹ 0))),
        told noMsg σ (List.range n)⟩ : Conf ℕ Msg (Out Res)) = c3 := by
    simp only [c3]
    congr 1
    funext p
    by_cases hp0 : p = 0
    · subst hp0
      rw [Function.update_self, if_neg (by rw [mem_others]; tauto), if_pos hz]
      rfl
    · rw [Function.update_of_ne hp0]
      by_cases hpo : p ∈ others n
      · rw [if_pos hpo, if_pos hpo]
      · have hpn : ¬ p < n := fun h => hpo (mem_others.2 ⟨hp0, h⟩)
        rw [if_neg hpo, if_neg hpo, if_neg hpn, if_neg hpn]
  rw [e3]
  obtain ⟨n4, r4⟩ := steps_recv (others n) (List.nodup_range' ..) c3 (fun _ => 0) 0
    (fun p => .int (σ p)) (fun p => wait1 p (buf p) (rep p))
    (fun p hp => by simp only [c3]; rw [if_pos hp])
    (fun p hp => ⟨[], by
      rw [mem_others] at hp
      simp [c3, told, noMsg, hp.1, hp.2]⟩)
  refine Reach.trans ⟨n4, r4⟩ ?_
  obtain ⟨n5, r5⟩ := steps_recv (others n) (List.nodup_range' ..)
    (⟨fun p => if p ∈ others n then wait1 p (buf p) (rep p) (.int (σ p)) else c3.proc p,
      popAll c3.chan (· ∈ others n) (fun _ => 0) 0⟩ : Conf ℕ Msg (Out Res)) (fun _ => 0) 1
    (fun p => .int (σ⁻¹ p)) (fun p => fun
        | .int recvPt => exchange p (buf p) (rep p) (σ p) recvPt
        | _ => .done Out.ub)
    (fun p hp => by
      dsimp only; rw [if_pos hp]
      unfold wait1
      rfl)
    (fun p hp => ⟨[], by
      rw [mem_others] at hp
      have h3 := hσ.inv.lt hp.2
      dsimp only [popAll]
      rw [if_neg (by simp)]
      simp only [c3, told, noMsg]
      rw [if_neg (by simp), if_pos ⟨trivial, hp.1, trivial, List.mem_range.2 h3⟩]
      rfl⟩)
  refine Reach.trans ⟨n5, r5⟩ ?_
  refine Reach.trans ?_ (reach_exchange hσ buf rep ds.length acc)
  dsimp only
  have e5 : (⟨fun p => if p ∈ others n then exchange p (buf p) (rep p) (σ p) (σ⁻¹ p) else
      if p ∈ others n then wait1 p (buf p) (rep p) (.int (σ p)) else c3.proc p,
      popAll (popAll c3.chan (· ∈ others n) (fun _ => 0) 0) (· ∈ others n) (fun _ => 0) 1⟩ :
        Conf ℕ Msg (Out Res)) =
      ⟨fun p => if p < n then
        exchange p (buf p) (counted rep ds.length acc p) (σ p) (σ⁻¹ p) else .done Out.throw,
        noMsg⟩ := by
    congr 1
    · funext p
      by_cases hp0 : p = 0
      · subst hp0
        rw [if_neg (by rw [mem_others]; tauto), if_neg (by rw [mem_others]; tauto), if_pos hz]
        simp only [c3]
        rw [if_neg (by rw [mem_others]; tauto), if_pos hz]
      · by_cases hpn : p < n
        · rw [if_pos (mem_others.2 ⟨hp0, hpn⟩), if_pos hpn]
          simp only [counted, if_neg hp0]
        · rw [if_neg (by rw [mem_others]; tauto), if_neg (by rw [mem_others]; tauto), if_neg hpn]
          simp only [c3]
          rw [if_neg (by rw [mem_others]; tauto), if_neg hpn]
    · funext x y s
      simp only [c3, popAll, told, noMsg, mem_others, List.mem_range, List.nil_append]
      have hy : σ⁻¹ y < n ↔ y < n := by
        constructor
        · intro h
          have := hσ.lt h
          rwa [perm_inv_apply] at this
        · exact hσ.inv.lt
      simp only [hy]
      by_cases hx : x = 0
      · by_cases hy0 : y = 0
        · simp [hy0]
        · by_cases hyn : y < n
          · by_cases hs0 : s = 0
            · simp [hx, hy0, hyn, hs0]
            · by_cases hs1 : s = 1
              · simp [hx, hy0, hyn, hs1]
              · simp [hs0, hs1]
          · simp [hyn]
      · simp [hx]
  rw [e5]
  exact Reach.rfl' _

theorem finalGen_ended (n : ℕ) (buf : ℕ → List Vec) (rep : ℕ → Rep) (σ : Equiv.Perm ℕ)
    (nAtt acc : ℕ) : Ended (finalGen n buf rep σ nAtt acc) := by
  intro p
  unfold finalGen
  by_cases h : p < n
  · by_cases h' : σ p = p
    · exact ⟨_, by simp only [if_pos h, if_pos h']; rfl⟩
    · exact ⟨_, by simp only [if_pos h, if_neg h']; rfl⟩
  · exact ⟨_, if_neg h⟩

end Verif.Replica
