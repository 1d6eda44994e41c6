/-
The messages of replica exchange if sends wait for the matching receive.
-/
import Verif.Replica.Exchange

set_option autoImplicit false

namespace Verif.Replica

open Verif.Cpp Verif.Cpp.Out Verif.Cpp.Net Verif.McMoves

/-- Some number of steps with waiting sends. -/
def SReach (c d : Conf ℕ Msg (Out Res)) : Prop := ∃ n, SyncSteps n c d

theorem SReach.trans {c d e : Conf ℕ Msg (Out Res)} (h1 : SReach c d) (h2 : SReach d e) :
    SReach c e := by
  obtain ⟨n, h1⟩ := h1
  obtain ⟨m, h2⟩ := h2
  exact ⟨n + m, h1.trans h2⟩

theorem SReach.rfl' (c : Conf ℕ Msg (Out Res)) : SReach c c := ⟨0, SyncSteps.refl c⟩

theorem sreach_gather (nPar : ℕ) (der par : ℕ → List ℝ) (W : ℕ → Prog) (l : List ℕ) (hl : l.Nodup)
    (h0 : 0 ∉ l) (acc : (ℕ → List ℝ) × (ℕ → List ℝ)) (k : (ℕ → List ℝ) × (ℕ → List ℝ) → Prog)
    (c : Conf ℕ Msg (Out Res)) (hp : c.proc 0 = gather nPar l acc k)
    (hc : ∀ i ∈ l, c.proc i = .send 0 dataTag (.data (der i) (par i)) (W i))
    (h1 : ∀ i ∈ l, (der i).length = nPar) (h2 : ∀ i ∈ l, (par i).length = nPar) :
    ∃ d, SReach c d ∧ d.proc 0 = k (fun i => if i ∈ l then der i else acc.1 i,
        fun i => if i ∈ l then par i else acc.2 i) ∧ (∀ i ∈ l, d.proc i = W i) ∧
      ∀ i, i ≠ 0 → i ∉ l → d.proc i = c.proc i := by
  induction l generalizing acc c with
  | nil => exact ⟨c, SReach.rfl' c, by rw [hp]; simp [gather], by simp, by simp⟩
  | cons a l ih =>
    rw [List.nodup_cons] at hl
    rw [List.mem_cons, not_or] at h0
    have hs := SyncStep.comm c a 0 dataTag _ _ _ (Ne.symm h0.1) (hc a (by simp)) hp
    simp only [loadArrays_ok (h1 a (by simp)) (h2 a (by simp))] at hs
    obtain ⟨d, d1, d2, d3, d4⟩ := ih hl.2 h0.2
      (Function.update acc.1 a (der a), Function.update acc.2 a (par a))
      ⟨Function.update (Function.update c.proc a (W a)) 0 (gather nPar l
        (Function.update acc.1 a (der a), Function.update acc.2 a (par a)) k), c.chan⟩ (by
        dsimp only; rw [Function.update_self])
      (fun i hi => by
        have hne : i ≠ a := fun e => hl.1 (e ▸ hi)
        have hne0 : i ≠ 0 := fun e => h0.2 (e ▸ hi)
        dsimp only
        rw [Function.update_of_ne hne0, Function.update_of_ne hne]
        exact hc i (by simp [hi]))
      (fun i hi => h1 i (by simp [hi])) (fun i hi => h2 i (by simp [hi]))
    refine ⟨d, SReach.trans ⟨1, SyncSteps.one hs⟩ d1, ?_, ?_, ?_⟩
    · rw [d2]
      congr 1
      refine Prod.ext ?_ ?_ <;>
      · funext i
        by_cases hi : i ∈ l
        · simp [hi]
        · by_cases hia : i = a
          · subst hia; simp [hi]
          · simp [hi, hia]
    · intro i hi
      rcases List.mem_cons.1 hi with rfl | hi
      · rw [d4 i (Ne.symm h0.1) hl.1]
        dsimp only
        rw [Function.update_of_ne (Ne.symm h0.1), Function.update_self]
      · exact d3 i hi
    · intro i hi0 hi
      rw [List.mem_cons, not_or] at hi
      rw [d4 i hi0 hi.2]
      dsimp only
      rw [Function.update_of_ne hi0, Function.update_of_ne hi.1]

/-- A rank other than 0 that waits for its partners. -/
def Waits (buf : ℕ → List Vec) (rep : ℕ → Rep) (c : Conf ℕ Msg (Out Res)) (i : ℕ) : Prop :=
  c.proc i = .recv 0 0 (wait1 i (buf i) (rep i))

/-- Rank 0 sends partners to ranks that are left in place. -/
theorem sreach_fixed (buf : ℕ → List Vec) (rep : ℕ → Rep) (σ : Equiv.Perm ℕ) (l r : List ℕ)
    (hl : l.Nodup) (sp rp : Option ℕ)
    (k : Option ℕ → Option ℕ → Prog) (c : Conf ℕ Msg (Out Res))
    (hp : c.proc 0 = distribute σ (l ++ r) sp rp k) (hfix : ∀ i ∈ l, σ i = i)
    (hw : ∀ i ∈ l, i ≠ 0 → Waits buf rep c i) :
    ∃ d sp' rp', SReach c d ∧ d.proc 0 = distribute σ r sp' rp' k ∧
      (∀ i ∈ l, i ≠ 0 → ∃ x, d.proc i = .done x) ∧
      ∀ i, i ≠ 0 → i ∉ l → d.proc i = c.proc i := by
  induction l generalizing sp rp c with
  | nil => exact ⟨c, sp, rp, SReach.rfl' c, hp, by simp, by simp⟩
  | cons a l ih =>
    rw [List.nodup_cons] at hl
    have hfa := hfix a (by simp)
    by_cases ha : a = 0
    · subst ha
      simp only [List.cons_append, distribute, hfa, ne_eq, not_true_eq_false, if_false] at hp
      obtain ⟨d, sp', rp', d1, d2, d3, d4⟩ := ih hl.2 _ _ c hp (fun i hi => hfix i (by simp [hi]))
        (fun i hi h => hw i (by simp [hi]) h)
      refine ⟨d, sp', rp', d1, d2, ?_, ?_⟩
      · intro i hi hi0
        exact d3 i (by simpa [hi0] using hi) hi0
      · intro i hi0 hi
        exact d4 i hi0 (fun h => hi (by simp [h]))
    · have hwa := hw a (by simp) ha
      unfold Waits at hwa
      simp only [List.cons_append, distribute, hfa, ne_eq, ha, not_false_eq_true, if_true] at hp
      have s1 := SyncStep.comm c 0 a 0 _ _ _ (Ne.symm ha) hp hwa
      have s2 := SyncStep.comm (⟨Function.update (Function.update c.proc 0
          (.send a 1 (.int a) (distribute σ (l ++ r) sp rp k))) a
            (wait1 a (buf a) (rep a) (.int a)), c.chan⟩ : Conf ℕ Msg (Out Res))
        0 a 1 (.int a) (distribute σ (l ++ r) sp rp k)
        (fun
        | .int recvPt => exchange a (buf a) (rep a) a recvPt
        | _ => .done Out.ub) (Ne.symm ha)
        (by
          dsimp only
          rw [Function.update_of_ne (Ne.symm ha), Function.update_self])
        (by
          dsimp only
          rw [Function.update_self]
          rfl)
      obtain ⟨d, sp', rp', d1, d2, d3, d4⟩ := ih hl.2 sp rp
        ⟨Function.update (Function.update (Function.update (Function.update c.proc 0
          (.send a 1 (.int a) (distribute σ (l ++ r) sp rp k))) a
            (wait1 a (buf a) (rep a) (.int a))) 0 (distribute σ (l ++ r) sp rp k)) a
            (exchange a (buf a) (rep a) a a), c.chan⟩ (by
          dsimp only
          rw [Function.update_of_ne (Ne.symm ha), Function.update_self])
        (fun i hi => hfix i (by simp [hi]))
        (fun i hi h => by
          have hne : i ≠ a := fun e => hl.1 (e ▸ hi)
          unfold Waits
          dsimp only
          rw [Function.update_of_ne hne, Function.update_of_ne h, Function.update_of_ne hne,
            Function.update_of_ne h]
          exact hw i (by simp [hi]) h)
      refine ⟨d, sp', rp', (SReach.trans ⟨1, SyncSteps.one s1⟩ ⟨1, SyncSteps.one s2⟩).trans d1, d2,
        ?_, ?_⟩
      · intro i hi hi0
        rcases List.mem_cons.1 hi with rfl | hi
        · refine ⟨ok ⟨rep i, i, none⟩, ?_⟩
          rw [d4 i ha hl.1]
          dsimp only
          rw [Function.update_self]
          unfold exchange
          rw [if_pos (Or.inl rfl)]
        · exact d3 i hi hi0
      · intro i hi0 hi
        rw [List.mem_cons, not_or] at hi
        rw [d4 i hi0 hi.2]
        dsimp only
        rw [Function.update_of_ne hi.1, Function.update_of_ne hi0, Function.update_of_ne hi.1,
          Function.update_of_ne hi0]

/-- A state in which rank 0 waits for a rank that waits for something else. -/
theorem stuck {c : Conf ℕ Msg (Out Res)} {b : ℕ} {m : Msg} {k : Prog} {k' : Msg → Prog}
    (h0 : c.proc 0 = .send b 1 m k) (hb : c.proc b = .recv 0 0 k')
    (hrest : ∀ i, i ≠ 0 → (∃ x, c.proc i = .done x) ∨ ∃ s t f, c.proc i = .recv s t f) :
    (∀ f, ¬ SyncStep c f) ∧ ¬ Ended c := by
  constructor
  · intro f hf
    cases hf with
    | comm p q tag m' l l' hne hp hq =>
      by_cases hp0 : p = 0
      · subst hp0
        rw [h0] at hp
        injection hp with e1 e2 e3 e4
        subst e1; subst e2
        rw [hb] at hq
        injection hq with e5 e6 e7
        exact absurd e6 (by decide)
      · rcases hrest p hp0 with ⟨x, hx⟩ | ⟨s, t, g, hx⟩
        · rw [hx] at hp; exact absurd hp (by simp)
        · rw [hx] at hp; exact absurd hp (by simp)
  · intro he
    obtain ⟨r, hr⟩ := he 0
    rw [h0] at hr
    exact absurd hr (by simp)

/-- The first rank that is not left in place. -/
theorem first_moved {n : ℕ} {σ : Equiv.Perm ℕ} (hne : ∃ i, i < n ∧ σ i ≠ i) :
    ∃ i, i < n ∧ σ i ≠ i ∧ ∀ j, j < i → σ j = j := by
  classical
  refine ⟨Nat.find hne, (Nat.find_spec hne).1, (Nat.find_spec hne).2, fun j hj => ?_⟩
  by_contra hc
  exact Nat.find_min hne hj ⟨lt_trans hj (Nat.find_spec hne).1, hc⟩

theorem sync_deadlock {n : ℕ} (hn : 2 ≤ n) (nPar : ℕ) (der par : ℕ → List ℝ) (buf : ℕ → List Vec)
    (rep : ℕ → Rep) (ds : List Draw) (hd : ∀ d ∈ ds, d.Valid n)
    (h1 : ∀ p, p < n → (der p).length = nPar) (h2 : ∀ p, p < n → (par p).length = nPar)
    {σ : Equiv.Perm ℕ} {acc : ℕ} (hσ : Fixes n σ)
    (hs : sample n nPar der par ds = ok (⇑σ, acc)) (hmove : ∃ i, i < n ∧ σ i ≠ i) :
    ∃ e, SReach (start n nPar der par buf rep ds) e ∧ (∀ f, ¬ SyncStep e f) ∧ ¬ Ended e := by
  have hz : (0 : ℕ) < n := by omega
  obtain ⟨c1, a1, a2, a3, a4⟩ := sreach_gather nPar der par
    (fun p => .recv 0 0 (wait1 p (buf p) (rep p))) (others n) (List.nodup_range' ..)
    (by rw [mem_others]; tauto) (fun _ => der 0, fun _ => par 0)
    (fun acc => afterSample n (buf 0) (rep 0) ds.length (sample n nPar acc.1 acc.2 ds))
    (start n nPar der par buf rep ds)
    (by simp only [start, if_pos hz]; rfl)
    (fun i hi => by
      rw [mem_others] at hi
      simp only [start, if_pos hi.2, if_pos hi.1, worker]
      rfl)
    (fun i hi => h1 i (mem_others.1 hi).2) (fun i hi => h2 i (mem_others.1 hi).2)
  have es : sample n nPar (fun i => if i ∈ others n then der i else der 0)
      (fun i => if i ∈ others n then par i else par 0) ds = ok (⇑σ, acc) := by
    rw [← hs]
    refine sample_congr hn nPar ?_ ?_ ds hd
    · intro i hi
      by_cases h0 : i = 0
      · subst h0; split <;> rfl
      · rw [if_pos (mem_others.2 ⟨h0, hi⟩)]
    · intro i hi
      by_cases h0 : i = 0
      · subst h0; split <;> rfl
      · rw [if_pos (mem_others.2 ⟨h0, hi⟩)]
  rw [es] at a2
  obtain ⟨i0, b1, b2, b3⟩ := first_moved hmove
  have hsplit : List.range n = List.range i0 ++ (i0 :: List.range' (i0 + 1) (n - i0 - 1)) := by
    have e1 : List.range n = List.range' 0 (i0 + (n - i0)) := by
      rw [List.range_eq_range', Nat.add_sub_cancel' b1.le]
    rw [e1, List.range_eq_range', ← List.range'_append_1]
    congr 1
    rw [show n - i0 = (n - i0 - 1) + 1 by omega, List.range'_succ, Nat.zero_add]
    simp
  change c1.proc 0 = distribute σ (List.range n) none none _ at a2
  rw [hsplit] at a2
  obtain ⟨c2, sp, rp, d1, d2, d3, d4⟩ := sreach_fixed buf rep σ (List.range i0) _ List.nodup_range
    _ _ _ c1 a2 (fun i hi => b3 i (List.mem_range.1 hi))
    (fun i hi h => a3 i (mem_others.2 ⟨h, lt_trans (List.mem_range.1 hi) b1⟩))
  have hgt : i0 < σ i0 := by
    rcases Nat.lt_trichotomy i0 (σ i0) with h | h | h
    · exact h
    · exact absurd h.symm b2
    · exact absurd (σ.injective (b3 _ h)) b2
  have hlt : σ i0 < n := hσ.lt b1
  have hw : ∀ i, i0 ≤ i → i ≠ 0 → i < n → Waits buf rep c2 i := by
    intro i h h' h''
    unfold Waits
    rw [d4 i h' (by rw [List.mem_range]; omega), a3 i (mem_others.2 ⟨h', h''⟩)]
  have hrest : ∀ i, i ≠ 0 → (∃ x, c2.proc i = .done x) ∨ ∃ s t f, c2.proc i = .recv s t f := by
    intro i hi
    by_cases hin : i < n
    · by_cases hi0 : i < i0
      · exact Or.inl (d3 i (List.mem_range.2 hi0) hi)
      · exact Or.inr ⟨_, _, _, hw i (by omega) hi hin⟩
    · refine Or.inl ⟨Out.throw, ?_⟩
      rw [d4 i hi (by rw [List.mem_range]; omega), a4 i hi (by rw [mem_others]; tauto)]
      simp only [start, if_neg hin]
  have hs0 : σ i0 ≠ 0 := by omega
  by_cases hi0 : i0 = 0
  · subst hi0
    simp only [distribute, ne_eq, not_true_eq_false, if_false, hs0, not_false_eq_true,
      if_true] at d2
    exact ⟨c2, a1.trans d1, stuck d2 (hw (σ 0) hgt.le hs0 hlt) hrest⟩
  · simp only [distribute, ne_eq, hi0, hs0, not_false_eq_true, if_true] at d2
    have s1 := SyncStep.comm c2 0 i0 0 _ _ _ (Ne.symm hi0) d2 (hw i0 (le_refl _) hi0 b1)
    refine ⟨_, (a1.trans d1).trans ⟨1, SyncSteps.one s1⟩, stuck (b := σ i0) (by
        dsimp only
        rw [Function.update_of_ne (Ne.symm hi0), Function.update_self])
      (k' := wait1 (σ i0) (buf (σ i0)) (rep (σ i0))) ?_ ?_⟩
    · dsimp only
      rw [Function.update_of_ne b2, Function.update_of_ne hs0]
      exact hw (σ i0) hgt.le hs0 hlt
    · intro i hi
      dsimp only
      by_cases h : i = i0
      · subst h
        rw [Function.update_self]
        exact Or.inr ⟨_, _, _, rfl⟩
      · rw [Function.update_of_ne h, Function.update_of_ne hi]
        exact hrest i hi

end Verif.Replica
