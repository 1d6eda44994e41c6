/-
Properties C80 (ddMd) and C81: analyzers, restart files and modifiers in runs of ddMd.
-/
import Verif.Schedule.Props
import Mathlib.Data.List.Count
import Mathlib.Data.List.Nodup

set_option autoImplicit false

namespace Verif.Schedule

open Verif.Cpp
open Verif.Cpp.Out

theorem see_hooks (c : Bool) (k : ℕ) (x : Seen) (l : List Hook) (i : ℕ) :
    see c k x (l.map (fun h => Ev.hook h i)) = x := by
  induction l with
  | nil => rfl
  | cons h l ih => exact ih

/-- Saving in the loop. -/
def ddSave (p : Pars) (b i : ℕ) : List Ev :=
  if p.saveInt > 0 then (if i % p.saveInt = 0 then (if i > b then [Ev.save i] else []) else []) else []

theorem see_ddSave (c : Bool) (k : ℕ) (x : Seen) (p : Pars) (b i : ℕ) :
    see c k x (ddSave p b i) = x := by
  unfold ddSave
  split_ifs <;> rfl

theorem ddSample_eq {p : Pars} {k : ℕ} (h : Good p k) (i : ℕ) :
    ddSample p i = if i % p.base = 0 then [Ev.sample i] else [] := by
  unfold ddSample
  rw [if_pos h.base]

theorem see_ddBody {p : Pars} {k : ℕ} (h : Good p k) (c : Bool) (need : ℕ → Bool) (b : ℕ) (x : Seen)
    (i : ℕ) :
    see c k x (ddBody p need b i) =
      ⟨x.steps + 1, x.samples ++ (if i % k = 0 then [(i, x.steps)] else [])⟩ := by
  unfold ddBody
  rw [see_append, see_append, see_append, ddSample_eq h, see_sample h, see_hooks]
  have := see_ddSave c k { x with samples := x.samples ++ (if i % k = 0 then [(i, x.steps)] else []) } p b i
  unfold ddSave at this
  rw [this]
  rfl

theorem see_ddBodies {p : Pars} {k : ℕ} (h : Good p k) (c : Bool) (need : ℕ → Bool) (a : ℕ) (x : Seen)
    (b n : ℕ) (hx : x.steps = b) :
    see c k x ((List.range' b n).flatMap (ddBody p need a)) = ⟨b + n, x.samples ++ times k b n⟩ := by
  induction n with
  | zero => cases x; subst hx; simp [see, times]
  | succ n ih =>
    rw [List.range'_1_concat, List.flatMap_append, see_append, ih]
    simp only [List.flatMap_cons, List.flatMap_nil, List.append_nil]
    rw [see_ddBody h, times_succ, List.append_assoc, Nat.add_assoc]

/-- **C80 (ddMd).** A run of `n` steps from `b` adds the samples at the multiples of the interval from
`b` to `b + n`, both included. -/
theorem C80_dd_run (p : Pars) (need : ℕ → Bool) (k b n : ℕ) (h : Good p k) (x : Seen)
    (hx : x.steps = b) :
    see false k x (ddRun p need b n) = ⟨b + n, x.samples ++ times k b (n + 1)⟩ := by
  unfold ddRun ddPasses
  rw [see_append, see_append, see_append]
  have h1 : see false k x [Ev.hook Hook.setup b, Ev.setup] = x := rfl
  rw [h1, see_ddBodies h false need b x b n hx, ddSample_eq h, see_sample h, see_save, times_succ,
    List.append_assoc]

/-- **C80 (ddMd, successive runs; violated).** Two successive runs of `m` and `n` steps give the same
samples as one run of `m + n` steps exactly if the step between them is not a multiple of the interval;
otherwise it is sampled twice. -/
theorem C80_dd_split (p : Pars) (need : ℕ → Bool) (k b m n : ℕ) (h : Good p k) (x : Seen)
    (hx : x.steps = b) :
    see false k (see false k x (ddRun p need b m)) (ddRun p need (b + m) n) =
        see false k x (ddRun p need b (m + n)) ↔ ¬ (b + m) % k = 0 := by
  rw [C80_dd_run p need k b m h x hx, C80_dd_run p need k (b + m) n h _ rfl,
    C80_dd_run p need k b (m + n) h x hx, Nat.add_assoc m n 1, times_split k b m (n + 1), Seen.mk.injEq]
  simp only [Nat.add_assoc b m n, true_and]
  rw [List.append_assoc, List.append_cancel_left_eq, times_inj]

theorem arch_hooks (c : Bool) (k : ℕ) (y : Seen × Option (ℕ × Seen)) (l : List Hook) (i : ℕ) :
    (arch c k y (l.map (fun h => Ev.hook h i))).2 = y.2 :=
  arch_snd c k y _ (fun j hj => by simp at hj)

/-- **C80 (ddMd, restart file).** A restart file written in the loop of a run from `b` is of a multiple
`s` of the save interval after `b`, and the analyzer in it has sampled at `s`. -/
theorem C80_dd_archive (p : Pars) (need : ℕ → Bool) (k b n : ℕ) (h : Good p k) (hs : 0 < p.saveInt)
    (x : Seen) (hx : x.steps = b) (s : ℕ) (y : Seen)
    (hy : archive false k x (ddPasses p need b n) = some (s, y)) :
    b < s ∧ s < b + n ∧ s % p.saveInt = 0 ∧ y = ⟨s, x.samples ++ times k b (s - b + 1)⟩ := by
  unfold ddPasses at hy
  change (arch false k (x, none) _).2 = _ at hy
  rw [arch_append] at hy
  have h0 : arch false k (x, none) [Ev.hook Hook.setup b, Ev.setup] = (x, none) := rfl
  rw [h0] at hy
  have step : ∀ (y : Seen × Option (ℕ × Seen)) (i : ℕ), (arch false k y (ddBody p need b i)).2 =
      if i % p.saveInt = 0 ∧ i > b then
        some (i, ⟨y.1.steps, y.1.samples ++ (if i % k = 0 then [(i, y.1.steps)] else [])⟩)
      else y.2 := by
    intro y i
    unfold ddBody
    have last : ∀ z, (arch false k z [Ev.step i]).2 = z.2 := fun _ => rfl
    rw [arch_append, arch_append, arch_append, last, arch_hooks, ddSample_eq h]
    have e1 : ∀ z, (arch false k z (ddSave p b i)).2 =
        if i % p.saveInt = 0 ∧ i > b then some (i, z.1) else z.2 := by
      intro z
      unfold ddSave
      rw [if_pos hs]
      by_cases c1 : i % p.saveInt = 0 <;> by_cases c2 : i > b <;> simp [c1, c2, arch]
    have e2 := e1 (arch false k y (if i % p.base = 0 then [Ev.sample i] else []))
    unfold ddSave at e2
    rw [e2, arch_fst, see_sample h, arch_sample]
  induction n with
  | zero => simp [arch] at hy
  | succ n ih =>
    rw [List.range'_1_concat, List.flatMap_append, arch_append] at hy
    simp only [List.flatMap_cons, List.flatMap_nil, List.append_nil] at hy
    rw [step] at hy
    by_cases hc : (b + n) % p.saveInt = 0 ∧ b + n > b
    · rw [if_pos hc, arch_fst, see_ddBodies h false need b x b n hx] at hy
      simp only [Option.some.injEq, Prod.mk.injEq] at hy
      obtain ⟨e1, e2⟩ := hy
      subst e1
      refine ⟨by omega, by omega, hc.1, ?_⟩
      rw [← e2]
      have e3 : b + n - b = n := by omega
      rw [e3, times_succ, List.append_assoc]
    · rw [if_neg hc] at hy
      obtain ⟨a1, a2, a3, a4⟩ := ih hy
      exact ⟨a1, by omega, a3, a4⟩

/-- **C80 (ddMd, restart; violated).** A run from `b` to `e` continued from a restart file of step `s`
gives the analyzer of the uninterrupted run exactly if `s` is not a multiple of its interval. -/
theorem C80_dd_restart (p : Pars) (need : ℕ → Bool) (k b n e : ℕ) (h : Good p k) (hs : 0 < p.saveInt)
    (x : Seen) (hx : x.steps = b) (s : ℕ) (y : Seen) (he : b + n ≤ e)
    (hy : archive false k x (ddPasses p need b n) = some (s, y)) :
    see false k y (ddRun p need s (e - s)) = see false k x (ddRun p need b (e - b)) ↔ ¬ s % k = 0 := by
  obtain ⟨h1, h2, _, h4⟩ := C80_dd_archive p need k b n h hs x hx s y hy
  obtain ⟨m, rfl⟩ : ∃ m, s = b + m := ⟨s - b, by omega⟩
  have e1 : b + m - b = m := by omega
  rw [e1] at h4
  subst h4
  rw [C80_dd_run p need k (b + m) _ h _ rfl, C80_dd_run p need k b _ h x hx]
  have e2 : e - b = m + (e - (b + m)) := by omega
  rw [e2, Nat.add_assoc m _ 1, times_split k b m (e - (b + m) + 1), Seen.mk.injEq]
  have e3 : b + m + (e - (b + m)) = b + (m + (e - (b + m))) := by omega
  simp only [e3, true_and]
  rw [List.append_assoc, List.append_cancel_left_eq, times_inj]

/-! ### Modifiers -/

theorem lists_read (m : Manager) (ms : List Modifier) (h : Hook) :
    (m.readParameters ms).lists h =
      (List.range ms.length).filter (fun i => (ms[i]?.map (fun x => x.flag h)).getD false) := by
  unfold Manager.readParameters
  have key : ∀ (l : List ℕ) (m : Manager), (l.foldl (fun (m : Manager) i =>
      { m with lists := fun h =>
        if (ms[i]?.map (fun x => x.flag h)).getD false then m.lists h ++ [i] else m.lists h }) m).lists h =
      m.lists h ++ l.filter (fun i => (ms[i]?.map (fun x => x.flag h)).getD false) := by
    intro l
    induction l with
    | nil => intro m; simp
    | cons i l ih =>
      intro m
      rw [List.foldl_cons, ih]
      by_cases hc : (ms[i]?.map (fun x => x.flag h)).getD false = true
      · simp only [hc, if_true, List.filter_cons_of_pos]; simp
      · have hc' := eq_false_of_ne_true hc
        simp [hc']
  rw [key]; rfl

theorem mods_read (m : Manager) (ms : List Modifier) : (m.readParameters ms).mods = ms := by
  unfold Manager.readParameters
  have key : ∀ (l : List ℕ) (m : Manager), (l.foldl (fun (m : Manager) i =>
      { m with lists := fun h =>
        if (ms[i]?.map (fun x => x.flag h)).getD false then m.lists h ++ [i] else m.lists h }) m).mods =
      m.mods := by
    intro l
    induction l with
    | nil => intro m; rfl
    | cons i l ih => intro m; rw [List.foldl_cons, ih]
  rw [key]

/-- **C81 (one function).** After `readParameters`, a function of the manager calls the modifiers that
have its flag and whose interval divides the step (for `setup` whatever the step), in order of the file. -/
theorem C81_call (m : Manager) (ms : List Modifier) (h : Hook) (i : ℕ) :
    (m.readParameters ms).call h i = (List.range ms.length).filter (fun j =>
      (ms[j]?.map (fun x => x.flag h && (decide (h = Hook.setup) || i % x.interval == 0))).getD false) := by
  unfold Manager.call
  rw [lists_read, mods_read]
  by_cases hs : h = Hook.setup
  · rw [if_pos hs]
    simp [hs]
  · rw [if_neg hs, List.filter_filter]
    refine List.filter_congr fun j _ => ?_
    cases ms[j]? with
    | none => rfl
    | some x => simp [hs, Bool.and_comm]

/-- The functions of a run that are told a step: `setup` at the start, then those of each step. -/
def runHooks (need : ℕ → Bool) (b n : ℕ) : List (Hook × ℕ) :=
  (Hook.setup, b) :: (List.range' b n).flatMap (fun i => (stepHooks (need i)).map (fun h => (h, i)))

theorem calls_append (m : Manager) (a b : List Ev) : m.calls (a ++ b) = m.calls a ++ m.calls b :=
  List.flatMap_append

theorem calls_other (m : Manager) (l : List Ev) (h : ∀ g i, Ev.hook g i ∉ l) : m.calls l = [] := by
  unfold Manager.calls
  rw [List.flatMap_eq_nil_iff]
  intro e he
  cases e with
  | hook g i => exact absurd he (h g i)
  | _ => rfl

/-- **C81 (run).** Order of all calls of modifiers in a run. -/
theorem C81_calls (m : Manager) (p : Pars) (need : ℕ → Bool) (b n : ℕ) :
    m.calls (ddRun p need b n) =
      (runHooks need b n).flatMap (fun x => (m.call x.1 x.2).map (fun k => (k, x.1, x.2))) := by
  have hsample : ∀ i, m.calls (ddSample p i) = [] := fun i => calls_other m _ (fun g j => by
    unfold ddSample; split_ifs <;> simp)
  have hsave : ∀ i, m.calls (saveIf p i) = [] := fun i => calls_other m _ (fun g j => by
    unfold saveIf; split_ifs <;> simp)
  have hdd : ∀ i, m.calls (ddSave p b i) = [] := fun i => calls_other m _ (fun g j => by
    unfold ddSave; split_ifs <;> simp)
  have hb : ∀ i, m.calls (ddBody p need b i) = ((stepHooks (need i)).map (fun h => (h, i))).flatMap
      (fun x : Hook × ℕ => (m.call x.1 x.2).map (fun k => (k, x.1, x.2))) := by
    intro i
    unfold ddBody
    have e := hdd i
    unfold ddSave at e
    rw [calls_append, calls_append, calls_append, hsample, e]
    have : m.calls [Ev.step i] = [] := rfl
    rw [this, List.append_nil, List.nil_append, List.nil_append]
    unfold Manager.calls
    rw [List.flatMap_map, List.flatMap_map]
  have hl : ∀ l : List ℕ, m.calls (l.flatMap (ddBody p need b)) =
      (l.flatMap (fun i => (stepHooks (need i)).map (fun h => (h, i)))).flatMap
        (fun x => (m.call x.1 x.2).map (fun k => (k, x.1, x.2))) := by
    intro l
    induction l with
    | nil => rfl
    | cons i l ih => rw [List.flatMap_cons, calls_append, hb, ih, List.flatMap_cons, List.flatMap_append]
  unfold ddRun ddPasses runHooks
  rw [calls_append, calls_append, calls_append, hsample, hsave, hl, List.append_nil, List.append_nil,
    List.flatMap_cons]
  congr 1
  simp [Manager.calls]

/-- **C81 (at the end of a step).** A modifier with flag `endOfStep` (or another flag of every step) and
interval `c` is called exactly once in each step of the run that is a multiple of `c`, and in no other. -/
theorem C81_once (m : Manager) (ms : List Modifier) (p : Pars) (need : ℕ → Bool) (b n j : ℕ)
    (x : Modifier) (hj : ms[j]? = some x) (h : Hook)
    (hh : h = Hook.preIntegrate1 ∨ h = Hook.postIntegrate1 ∨ h = Hook.preForce ∨ h = Hook.postForce ∨
      h = Hook.endOfStep) (hf : x.flag h = true) (i : ℕ) :
    ((m.readParameters ms).calls (ddRun p need b n)).count (j, h, i) =
      if b ≤ i ∧ i < b + n ∧ i % x.interval = 0 then 1 else 0 := by
  have hjl : j < ms.length := (List.getElem?_eq_some_iff.1 hj).1
  have hset : h ≠ Hook.setup := by rcases hh with e | e | e | e | e <;> rw [e] <;> decide
  set M := m.readParameters ms
  have inner : ∀ (g : Hook) (a : ℕ), ((M.call g a).map (fun k => (k, g, a))).count (j, h, i) =
      if g = h ∧ a = i ∧ i % x.interval = 0 then 1 else 0 := by
    intro g a
    by_cases hc : g = h ∧ a = i
    · obtain ⟨rfl, rfl⟩ := hc
      have hinj : Function.Injective (fun k : ℕ => (k, g, a)) := fun u v huv => (Prod.mk.inj huv).1
      rw [List.count_map_of_injective _ _ hinj, C81_call]
      by_cases hk : a % x.interval = 0
      · rw [if_pos ⟨rfl, rfl, hk⟩, List.count_filter (by simp [hj, hf, hk])]
        exact List.count_eq_one_of_mem List.nodup_range (List.mem_range.2 hjl)
      · rw [if_neg (fun hc => hk hc.2.2), List.count_eq_zero]
        intro hm
        rw [List.mem_filter] at hm
        simp [hj, hf, hk, hset] at hm
    · rw [if_neg (fun hc' => hc ⟨hc'.1, hc'.2.1⟩), List.count_eq_zero]
      intro hm
      rw [List.mem_map] at hm
      obtain ⟨k, _, hk⟩ := hm
      simp only [Prod.mk.injEq] at hk
      exact hc ⟨hk.2.1, hk.2.2⟩
  have stepc : ∀ a : ℕ, (((stepHooks (need a)).map (fun h => (h, a))).flatMap
      (fun x : Hook × ℕ => (M.call x.1 x.2).map (fun k => (k, x.1, x.2)))).count (j, h, i) =
      if a = i ∧ i % x.interval = 0 then 1 else 0 := by
    intro a
    rw [List.count_flatMap, List.map_map]
    have e : ((List.count (j, h, i) ∘ fun x : Hook × ℕ => (M.call x.1 x.2).map fun k => (k, x.1, x.2)) ∘
        fun h => (h, a)) = fun g => if g = h ∧ a = i ∧ i % x.interval = 0 then 1 else 0 :=
      funext fun g => inner g a
    rw [e]
    by_cases hc : a = i ∧ i % x.interval = 0
    · have e2 : (fun g => if g = h ∧ a = i ∧ i % x.interval = 0 then 1 else 0) =
          fun g : Hook => if g = h then 1 else 0 := by
        funext g; simp [hc.1, hc.2]
      rw [e2, if_pos hc]
      unfold stepHooks
      rcases hh with e | e | e | e | e <;> subst e <;> cases need a <;> rfl
    · have e2 : (fun g => if g = h ∧ a = i ∧ i % x.interval = 0 then 1 else 0) =
          fun _ : Hook => 0 := by
        funext g; rw [if_neg (fun hh => hc hh.2)]
      rw [e2, if_neg hc]
      simp
  rw [C81_calls]
  unfold runHooks
  rw [List.flatMap_cons, List.count_append, inner, if_neg (fun hc => hset hc.1.symm), Nat.zero_add]
  induction n with
  | zero =>
    rw [if_neg (by omega)]; rfl
  | succ n ih =>
    rw [List.range'_1_concat, List.flatMap_append, List.flatMap_append, List.count_append, ih]
    simp only [List.flatMap_cons, List.flatMap_nil, List.append_nil]
    have := stepc (b + n)
    rw [this]
    by_cases hk : i % x.interval = 0
    · by_cases h1 : b + n = i
      · rw [if_neg (by omega), if_pos ⟨h1, hk⟩, if_pos ⟨by omega, by omega, hk⟩]
      · have hz : ¬ (b + n = i ∧ i % x.interval = 0) := fun hc => h1 hc.1
        rw [if_neg hz, Nat.add_zero]
        by_cases h2 : b ≤ i ∧ i < b + n
        · rw [if_pos ⟨h2.1, h2.2, hk⟩, if_pos ⟨h2.1, by omega, hk⟩]
        · rw [if_neg (fun hc => h2 ⟨hc.1, hc.2.1⟩), if_neg (fun hc => h2 ⟨hc.1, by omega⟩)]
    · rw [if_neg (fun hc => hk hc.2.2), if_neg (fun hc => hk hc.2), if_neg (fun hc => hk hc.2.2)]

/-- **C81 (restart, violated).** After loading from a restart file no modifier is called, in any run. -/
theorem C81_load_violated (ms : List Modifier) (p : Pars) (need : ℕ → Bool) (b n : ℕ) :
    (Manager.empty.load ms).calls (ddRun p need b n) = [] := by
  rw [C81_calls, List.flatMap_eq_nil_iff]
  intro x _
  have : (Manager.empty.load ms).call x.1 x.2 = [] := by
    unfold Manager.call
    split_ifs <;> rfl
  rw [this]; rfl

/-- **C81 (other functions, violated).** A run calls no modifier through a function that is not `setup`
and not one of a step. -/
theorem C81_unused_violated (m : Manager) (p : Pars) (need : ℕ → Bool) (b n : ℕ) (h : Hook)
    (hh : h ≠ Hook.setup) (h1 : h ∉ stepHooks true) (h2 : h ∉ stepHooks false) (k i : ℕ) :
    (k, h, i) ∉ m.calls (ddRun p need b n) := by
  rw [C81_calls]
  intro hm
  rw [List.mem_flatMap] at hm
  obtain ⟨⟨g, a⟩, hx, hk⟩ := hm
  rw [List.mem_map] at hk
  obtain ⟨_, _, hk⟩ := hk
  simp only [Prod.mk.injEq] at hk
  obtain ⟨_, rfl, _⟩ := hk
  unfold runHooks at hx
  rw [List.mem_cons] at hx
  rcases hx with hx | hx
  · exact hh (Prod.mk.inj hx).1
  · rw [List.mem_flatMap] at hx
    obtain ⟨c, _, hc⟩ := hx
    rw [List.mem_map] at hc
    obtain ⟨g', hg, he⟩ := hc
    obtain ⟨rfl, _⟩ := Prod.mk.inj he
    cases hn : need c with
    | true => rw [hn] at hg; exact h1 hg
    | false => rw [hn] at hg; exact h2 hg

end Verif.Schedule
