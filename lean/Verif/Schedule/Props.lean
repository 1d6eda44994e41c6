/-
Properties C80: when analyzers sample and what restart files hold.
-/
import Verif.Schedule.Model

set_option autoImplicit false

namespace Verif.Schedule

open Verif.Cpp
open Verif.Cpp.Out

/-- The steps `b, …, b + n - 1` at which an analyzer of interval `k` samples, each seen after that
many steps. -/
def times (k b n : ℕ) : List (ℕ × ℕ) :=
  ((List.range' b n).filter (fun i => i % k = 0)).map (fun i => (i, i))

theorem times_succ (k b n : ℕ) :
    times k b (n + 1) = times k b n ++ (if (b + n) % k = 0 then [(b + n, b + n)] else []) := by
  unfold times
  rw [List.range'_1_concat, List.filter_append, List.map_append]
  congr 1
  by_cases h : (b + n) % k = 0 <;> simp [h]

theorem times_split (k b m n : ℕ) : times k b (m + n) = times k b m ++ times k (b + m) n := by
  induction n with
  | zero => simp [times]
  | succ n ih =>
    rw [← Nat.add_assoc, times_succ, ih, times_succ, List.append_assoc, Nat.add_assoc b m n]

/-- Parameters with analyzers, and an analyzer of interval `k` that was accepted
(Analyzer.cpp: the interval is a positive multiple of the base interval). -/
structure Good (p : Pars) (k : ℕ) : Prop where
  base : 0 < p.base
  size : 0 < p.size
  pos : 0 < k
  mult : k % p.base = 0

theorem Good.base_of {p : Pars} {k : ℕ} (h : Good p k) {i : ℕ} (hi : i % k = 0) : i % p.base = 0 :=
  Nat.mod_eq_zero_of_dvd ((Nat.dvd_of_mod_eq_zero h.mult).trans (Nat.dvd_of_mod_eq_zero hi))

/-- Events of a pass. -/
def pass (p : Pars) (i : ℕ) : List Ev :=
  (if i % p.base = 0 then [Ev.sample i] else []) ++ saveIf p i ++ [Ev.step i]

theorem sampleIf_ok {p : Pars} {k : ℕ} (h : Good p k) (mc : Bool) (i : ℕ) :
    sampleIf mc p i = ok (if i % p.base = 0 then [Ev.sample i] else []) := by
  unfold sampleIf
  rw [if_pos h.base]
  by_cases hi : i % p.base = 0
  · rw [if_pos hi, if_pos hi]
    have : managerSample p i = ok [Ev.sample i] := by
      unfold managerSample
      rw [check_true h.base, ok_bind, check_true hi, ok_bind]
    rw [if_pos h.size, this]
    cases mc <;> rfl
  · rw [if_neg hi, if_neg hi]

theorem loop_ok {p : Pars} {k : ℕ} (h : Good p k) (mc : Bool) (l : List ℕ) (tr : List Ev) :
    loop (body mc p) l tr = ok (tr ++ l.flatMap (pass p)) := by
  induction l generalizing tr with
  | nil => simp
  | cons i l ih =>
    have hb : body mc p tr i = ok (tr ++ pass p i) := by
      unfold body
      rw [sampleIf_ok h, ok_bind]
      rfl
    rw [loop_cons, hb, ok_bind, ih, List.flatMap_cons, List.append_assoc]

theorem see_append (c : Bool) (k : ℕ) (x : Seen) (a b : List Ev) :
    see c k x (a ++ b) = see c k (see c k x a) b := List.foldl_append

theorem see_save (c : Bool) (k : ℕ) (x : Seen) (p : Pars) (i : ℕ) : see c k x (saveIf p i) = x := by
  unfold saveIf
  split_ifs <;> rfl

theorem see_sample {p : Pars} {k : ℕ} (h : Good p k) (c : Bool) (x : Seen) (i : ℕ) :
    see c k x (if i % p.base = 0 then [Ev.sample i] else []) =
      { x with samples := x.samples ++ (if i % k = 0 then [(i, x.steps)] else []) } := by
  by_cases hk : i % k = 0
  · rw [if_pos (h.base_of hk), if_pos hk]
    simp [see, Ev.apply, hk]
  · rw [if_neg hk]
    split_ifs <;> simp [see, Ev.apply, hk]

theorem see_pass {p : Pars} {k : ℕ} (h : Good p k) (c : Bool) (x : Seen) (i : ℕ) :
    see c k x (pass p i) =
      ⟨x.steps + 1, x.samples ++ (if i % k = 0 then [(i, x.steps)] else [])⟩ := by
  unfold pass
  rw [see_append, see_append, see_sample h, see_save]
  rfl

theorem see_passes {p : Pars} {k : ℕ} (h : Good p k) (c : Bool) (x : Seen) (b n : ℕ)
    (hx : x.steps = b) :
    see c k x ((List.range' b n).flatMap (pass p)) = ⟨b + n, x.samples ++ times k b n⟩ := by
  induction n with
  | zero => cases x; subst hx; simp [see, times]
  | succ n ih =>
    rw [List.range'_1_concat, List.flatMap_append, see_append, ih]
    simp only [List.flatMap_cons, List.flatMap_nil, List.append_nil]
    rw [see_pass h, times_succ, List.append_assoc, Nat.add_assoc]

/-- **C80 (fresh run).** `simulate` without continuation takes `endStep` steps; an analyzer samples
once at every multiple of its interval from 0 to `endStep`, each time after that many steps, and
keeps nothing from before. -/
theorem C80_simulate (mc : Bool) (p : Pars) (k iStep endStep : ℕ) (h : Good p k) (x : Seen)
    (hx : x.steps = 0) :
    ∃ tr, simulate mc p iStep endStep false = ok (endStep, tr) ∧
      see true k x tr = ⟨endStep, times k 0 (endStep + 1)⟩ := by
  unfold simulate passes
  simp only [Bool.false_eq_true, if_false, Nat.sub_zero, Nat.zero_max]
  rw [loop_ok h, ok_bind, sampleIf_ok h, ok_bind]
  refine ⟨_, rfl, ?_⟩
  rw [see_append, see_append, see_append, see_append]
  have h1 : see true k x [Ev.setup] = ⟨x.steps, []⟩ := rfl
  rw [h1, see_passes h true ⟨x.steps, []⟩ 0 endStep hx, see_sample h, see_save]
  simp only [see, List.foldl_cons, List.foldl_nil, Ev.apply, Nat.zero_add, List.nil_append]
  rw [times_succ, Nat.zero_add]

/-- **C80 (continuation).** With continuation the samples from `iStep` to `endStep`, both included, are
added to those there are. -/
theorem C80_continue (mc : Bool) (p : Pars) (k iStep endStep : ℕ) (h : Good p k) (x : Seen)
    (hx : x.steps = iStep) (he : iStep ≤ endStep) :
    ∃ tr, simulate mc p iStep endStep true = ok (endStep, tr) ∧
      see true k x tr = ⟨endStep, x.samples ++ times k iStep (endStep + 1 - iStep)⟩ := by
  unfold simulate passes
  simp only [if_true, Nat.max_eq_right he]
  rw [loop_ok h, ok_bind, sampleIf_ok h, ok_bind]
  refine ⟨_, rfl, ?_⟩
  rw [see_append, see_append, see_append, List.nil_append, see_passes h true _ iStep _ hx,
    see_sample h, see_save]
  have e1 : iStep + (endStep - iStep) = endStep := by omega
  have e2 : endStep + 1 - iStep = endStep - iStep + 1 := by omega
  simp only [see, List.foldl_cons, List.foldl_nil, Ev.apply, e1]
  rw [e2, times_succ, e1, List.append_assoc]

/-! ### Restart files -/

/-- State of the fold in `archive`. -/
def arch (c : Bool) (k : ℕ) (y : Seen × Option (ℕ × Seen)) (tr : List Ev) :
    Seen × Option (ℕ × Seen) :=
  tr.foldl (fun (y : Seen × Option (ℕ × Seen)) e =>
    (Ev.apply c k y.1 e, match e with
      | Ev.save i => some (i, y.1)
      | _ => y.2)) y

theorem arch_append (c : Bool) (k : ℕ) (y : Seen × Option (ℕ × Seen)) (a b : List Ev) :
    arch c k y (a ++ b) = arch c k (arch c k y a) b := List.foldl_append

theorem arch_fst (c : Bool) (k : ℕ) (y : Seen × Option (ℕ × Seen)) (tr : List Ev) :
    (arch c k y tr).1 = see c k y.1 tr := by
  induction tr generalizing y with
  | nil => rfl
  | cons e tr ih => exact ih _

/-- A list of events without saving leaves the restart file. -/
theorem arch_snd (c : Bool) (k : ℕ) (y : Seen × Option (ℕ × Seen)) (tr : List Ev)
    (h : ∀ i, Ev.save i ∉ tr) : (arch c k y tr).2 = y.2 := by
  induction tr generalizing y with
  | nil => rfl
  | cons e tr ih =>
    have h1 : arch c k y (e :: tr) = arch c k (arch c k y [e]) tr := rfl
    rw [h1, ih _ (fun i hi => h i (List.mem_cons_of_mem _ hi))]
    cases e with
    | save i => exact absurd List.mem_cons_self (h i)
    | _ => rfl

theorem arch_save (c : Bool) (k : ℕ) (y : Seen × Option (ℕ × Seen)) (p : Pars) (i : ℕ)
    (hs : 0 < p.saveInt) :
    arch c k y (saveIf p i) = (y.1, if i % p.saveInt = 0 then some (i, y.1) else y.2) := by
  unfold saveIf
  rw [if_pos hs]
  split_ifs <;> rfl

theorem arch_sample (c : Bool) (k : ℕ) (y : Seen × Option (ℕ × Seen)) (p : Pars) (i : ℕ) :
    (arch c k y (if i % p.base = 0 then [Ev.sample i] else [])).2 = y.2 := by
  split_ifs <;> rfl

theorem last_multiple {s n : ℕ} :
    s * ((n + 1) / s) = if (n + 1) % s = 0 then n + 1 else s * (n / s) := by
  rw [Nat.succ_div]
  by_cases h : (n + 1) % s = 0
  · rw [if_pos h, if_pos (Nat.dvd_of_mod_eq_zero h), ← Nat.succ_div_of_dvd (Nat.dvd_of_mod_eq_zero h)]
    exact Nat.mul_div_cancel' (Nat.dvd_of_mod_eq_zero h)
  · rw [if_neg h, if_neg (fun hd => h (Nat.mod_eq_zero_of_dvd hd)), Nat.add_zero]

/-- **C80 (restart file).** After the first `n + 1` passes of a fresh run, the restart file holds the
analyzer as it was at the last multiple `s` of the save interval that was reached, having sampled at
`s`. -/
theorem C80_archive (mc : Bool) (p : Pars) (k iStep n : ℕ) (h : Good p k) (hs : 0 < p.saveInt)
    (x : Seen) (hx : x.steps = 0) :
    ∃ tr, passes mc p iStep (n + 1) false = ok tr ∧
      archive true k x tr = some (p.saveInt * (n / p.saveInt),
        ⟨p.saveInt * (n / p.saveInt), times k 0 (p.saveInt * (n / p.saveInt) + 1)⟩) := by
  unfold passes
  simp only [Bool.false_eq_true, if_false]
  rw [loop_ok h]
  refine ⟨_, rfl, ?_⟩
  show (arch true k (x, none) _).2 = _
  rw [arch_append]
  have h0 : arch true k (x, none) [Ev.setup] = (⟨x.steps, []⟩, none) := rfl
  rw [h0, hx]
  have step : ∀ (y : Seen × Option (ℕ × Seen)) (i : ℕ), (arch true k y (pass p i)).2 =
      if i % p.saveInt = 0 then
        some (i, ⟨y.1.steps, y.1.samples ++ (if i % k = 0 then [(i, y.1.steps)] else [])⟩)
      else y.2 := by
    intro y i
    unfold pass
    rw [arch_append, arch_append, arch_save _ _ _ _ _ hs, arch_fst, see_sample h, arch_sample]
    split_ifs <;> rfl
  have seen : ∀ m, (arch true k (⟨0, []⟩, none) ((List.range' 0 m).flatMap (pass p))).1 =
      ⟨m, times k 0 m⟩ := by
    intro m
    rw [arch_fst, see_passes h true _ 0 m rfl]
    simp
  induction n with
  | zero =>
    have e : (List.range' 0 (0 + 1)).flatMap (pass p) = pass p 0 := by simp
    rw [e, step]
    simp [times]
  | succ n ih =>
    rw [List.range'_1_concat, List.flatMap_append, arch_append]
    simp only [List.flatMap_cons, List.flatMap_nil, List.append_nil, Nat.zero_add]
    rw [step, seen, ih, last_multiple]
    by_cases hc : (n + 1) % p.saveInt = 0
    · rw [if_pos hc, if_pos hc, times_succ k 0 (n + 1), Nat.zero_add]
    · rw [if_neg hc, if_neg hc]

theorem times_inj {k b m : ℕ} {l : List (ℕ × ℕ)} :
    times k b (m + 1) ++ l = times k b m ++ l ↔ ¬ (b + m) % k = 0 := by
  rw [times_succ]
  split_ifs with h
  · refine ⟨fun he => ?_, fun hn => absurd h hn⟩
    have := congrArg List.length he
    simp at this
  · simp [h]

/-- **C80 (restart, violated for accumulated results).** A run that is stopped after `n + 1` passes
and restarted from its file up to `endStep` gives an analyzer that is the one of the uninterrupted run
exactly if the step of the file is not a multiple of its interval; otherwise that step is sampled
twice. -/
theorem C80_restart (mc : Bool) (p : Pars) (k n endStep : ℕ) (h : Good p k) (hs : 0 < p.saveInt)
    (x : Seen) (hx : x.steps = 0) (hn : n ≤ endStep) :
    ∃ tr s y tr' full, passes mc p 0 (n + 1) false = ok tr ∧
      archive true k x tr = some (s, y) ∧
      simulate mc p s endStep true = ok (endStep, tr') ∧
      simulate mc p 0 endStep false = ok (endStep, full) ∧
      s = p.saveInt * (n / p.saveInt) ∧
      see true k y tr' = ⟨endStep, times k 0 (s + 1) ++ times k s (endStep + 1 - s)⟩ ∧
      (see true k y tr' = see true k x full ↔ ¬ s % k = 0) := by
  obtain ⟨tr, h1, h2⟩ := C80_archive mc p k 0 n h hs x hx
  set s := p.saveInt * (n / p.saveInt) with hsd
  have hsn : s ≤ n := Nat.mul_div_le n p.saveInt
  obtain ⟨tr', h3, h4⟩ := C80_continue mc p k s endStep h ⟨s, times k 0 (s + 1)⟩ rfl (by omega)
  obtain ⟨full, h5, h6⟩ := C80_simulate mc p k 0 endStep h x hx
  refine ⟨tr, s, _, tr', full, h1, h2, h3, h5, rfl, h4, ?_⟩
  rw [h4, h6]
  have e : times k 0 (endStep + 1) = times k 0 s ++ times k s (endStep + 1 - s) := by
    have := times_split k 0 s (endStep + 1 - s)
    rw [Nat.zero_add] at this
    rw [← this]; congr 1; omega
  rw [e, Seen.mk.injEq]
  rw [times_inj, Nat.zero_add]
  simp

/-! ### Analysis of files -/

theorem managerSample_one {p : Pars} (hb : p.base = 1) (i : ℕ) :
    managerSample p i = ok [Ev.sample i] := by
  unfold managerSample
  rw [check_true (by omega), ok_bind, check_true (by rw [hb]; exact Nat.mod_one i), ok_bind]

/-- Samples without the number of steps. -/
def Seen.told (x : Seen) : List ℕ := x.samples.map Prod.fst

theorem see_told (k : ℕ) (x : Seen) (l : List ℕ) :
    (see true k x (l.map Ev.sample)).told = x.told ++ l.filter (fun i => i % k = 0) := by
  induction l generalizing x with
  | nil => simp [see]
  | cons i l ih =>
    have h1 : see true k x ((i :: l).map Ev.sample) =
        see true k (see true k x [Ev.sample i]) (l.map Ev.sample) := rfl
    rw [h1, ih]
    by_cases h : i % k = 0 <;> simp [see, Ev.apply, Seen.told, h]

/-- **C80 (configuration files).** `analyzeConfigs(min, max)` with base interval 1 samples at every
multiple of the interval from `min` to `max`. -/
theorem C80_configs (mc : Bool) (p : Pars) (k min max : ℕ) (hb : p.base = 1) (hz : 0 < p.size)
    (hm : mc = true → min > 0) (hlt : min < max) (x : Seen) :
    ∃ tr, analyzeConfigs mc p min max = ok tr ∧
      (see true k x tr).told = (List.range' min (max + 1 - min)).filter (fun i => i % k = 0) := by
  unfold analyzeConfigs
  rw [check_true hm, ok_bind, check_true (by omega), ok_bind, check_true (by omega), ok_bind,
    check_true hz, ok_bind]
  have key : ∀ (l : List ℕ) (tr : List Ev), (∀ i ∈ l, i ≠ min) →
      loop (fun tr i => do
        let s ← managerSample p i
        ok (tr ++ ((if i = min then [Ev.setup] else []) ++ s))) l tr = ok (tr ++ l.map Ev.sample) := by
    intro l
    induction l with
    | nil => intro tr _; simp
    | cons i l ih =>
      intro tr hi
      rw [loop_cons, managerSample_one hb, ok_bind, if_neg (hi i List.mem_cons_self), ok_bind,
        ih _ (fun j hj => hi j (List.mem_cons_of_mem _ hj))]
      simp
  obtain ⟨n, hn⟩ : ∃ n, max + 1 - min = n + 1 := ⟨max - min, by omega⟩
  rw [hn, List.range'_succ, loop_cons, managerSample_one hb, ok_bind, if_pos rfl, ok_bind, key]
  · refine ⟨_, rfl, ?_⟩
    have e : [] ++ ([Ev.setup] ++ [Ev.sample min]) ++ (List.range' (min + 1) n).map Ev.sample ++
        [Ev.output] = [Ev.setup] ++ ((min :: List.range' (min + 1) n).map Ev.sample ++ [Ev.output]) := by
      simp
    rw [e, see_append, see_append]
    have h1 : see true k x [Ev.setup] = ⟨x.steps, []⟩ := rfl
    have h2 : ∀ y, see true k y [Ev.output] = y := fun _ => rfl
    rw [h1, h2, see_told]
    rfl
  · intro i hi
    rw [List.mem_range'_1] at hi
    omega

/-- **C80 (configuration files, violated for other base intervals).** With a base interval above 1,
`analyzeConfigs` always throws. -/
theorem C80_configs_violated (mc : Bool) (p : Pars) (min max : ℕ) (hb : 1 < p.base) :
    analyzeConfigs mc p min max = throw := by
  unfold analyzeConfigs
  by_cases hm : mc = true → min > 0
  swap
  · rw [check_false hm]; rfl
  rw [check_true hm, ok_bind]
  by_cases hlt : max > min
  swap
  · rw [check_false hlt]; rfl
  rw [check_true hlt, ok_bind, check_true (by omega), ok_bind]
  by_cases hz : p.size > 0
  swap
  · rw [check_false hz]; rfl
  rw [check_true hz, ok_bind]
  obtain ⟨n, hn⟩ : ∃ n, max + 1 - min = n + 1 + 1 := ⟨max - min - 1, by omega⟩
  rw [hn, List.range'_succ, List.range'_succ, loop_cons]
  have bad : ∀ i, ¬ i % p.base = 0 → managerSample p i = throw := by
    intro i hi
    unfold managerSample
    rw [check_true (by omega), ok_bind, check_false hi]; rfl
  by_cases h0 : min % p.base = 0
  · have h1 : ¬ (min + 1) % p.base = 0 := by
      intro h
      have := Nat.dvd_of_mod_eq_zero h
      have h2 := (Nat.dvd_add_right (Nat.dvd_of_mod_eq_zero h0)).1 this
      have := Nat.le_of_dvd Nat.one_pos h2
      omega
    cases hms : managerSample p min with
    | ok s => rw [ok_bind, ok_bind, loop_cons, bad _ h1]; rfl
    | throw => rfl
    | ub =>
      exfalso
      unfold managerSample at hms
      rw [check_true (by omega), ok_bind, check_true h0, ok_bind] at hms
      cases hms
  · rw [bad _ h0]; rfl

/-- **C80 (single files, violated).** One configuration cannot be analyzed; `McSimulation` cannot analyze the
configuration 0. -/
theorem C80_single_violated (p : Pars) (min max : ℕ) (mc : Bool) :
    analyzeConfigs mc p min min = throw ∧ analyzeConfigs true p 0 max = throw := by
  constructor
  · unfold analyzeConfigs
    by_cases hm : mc = true → min > 0
    · rw [check_true hm, ok_bind, check_false (by omega)]; rfl
    · rw [check_false hm]; rfl
  · unfold analyzeConfigs
    rw [check_false (by simp)]; rfl

theorem frameLoop_ok (p : Pars) (hb : p.base = 1) (min max frames : ℕ) :
    ∀ (fuel : ℕ) (x : Frames), x.hasFrame = true → x.iStep ≤ max + 1 → x.iStep ≤ frames →
      max + 2 - x.iStep ≤ fuel →
      ∃ y, frameLoop p min max frames fuel x = ok y ∧
        y.iStep = (if frames ≤ max then frames + 1 else max + 1) ∧
        ∀ k s, (see true k s y.tr).told =
          (List.range' x.iStep (Min.min (max + 1) frames - x.iStep)).foldl (fun l i =>
            (if i = min then [] else l) ++ (if i ≥ min ∧ i % k = 0 then [i] else []))
              (see true k s x.tr).told := by
  intro fuel
  induction fuel with
  | zero => intro x _ h1 _ h3; omega
  | succ fuel ih =>
    intro x hx h1 h2 h3
    rw [frameLoop]
    by_cases hle : x.iStep ≤ max
    swap
    · rw [if_neg (fun hc => hle hc.1)]
      refine ⟨x, rfl, ?_, ?_⟩
      · split_ifs <;> omega
      · intro k s
        have : Min.min (max + 1) frames - x.iStep = 0 := by
          have := Nat.min_le_left (max + 1) frames
          omega
        rw [this]; rfl
    rw [if_pos ⟨hle, hx⟩]
    by_cases hf : x.iStep < frames
    swap
    · rw [if_neg hf]
      have hfr : x.iStep = frames := by omega
      cases fuel with
      | zero => omega
      | succ fuel =>
        rw [frameLoop, if_neg (by simp)]
        refine ⟨_, rfl, ?_, ?_⟩
        · rw [if_pos (by omega)]; show x.iStep + 1 = _; omega
        · intro k s
          have : Min.min (max + 1) frames - x.iStep = 0 := by
            have := Nat.min_le_right (max + 1) frames
            omega
          rw [this]; rfl
    rw [if_pos hf]
    obtain ⟨y, e1, e2, e3⟩ := ih ⟨x.tr ++ ((if x.iStep = min then [Ev.setup] else []) ++
      (if x.iStep ≥ min then [Ev.sample x.iStep] else [])), x.iStep + 1, true⟩ rfl
      (by show x.iStep + 1 ≤ _; omega) (by show x.iStep + 1 ≤ _; omega)
      (by show _ - (x.iStep + 1) ≤ _; omega)
    refine ⟨y, ?_, e2, ?_⟩
    · rw [← e1]
      by_cases c2 : x.iStep ≥ min
      · simp only [if_pos c2]; rw [managerSample_one hb, ok_bind]
      · simp only [if_neg c2]; rw [ok_bind]
    intro k s
    have hlen : Min.min (max + 1) frames - x.iStep =
        (Min.min (max + 1) frames - (x.iStep + 1)) + 1 := by
      have : x.iStep + 1 ≤ Min.min (max + 1) frames := Nat.le_min.2 ⟨by omega, by omega⟩
      omega
    rw [hlen, List.range'_succ, List.foldl_cons, e3 k s]
    congr 1
    dsimp only
    rw [see_append, see_append]
    generalize see true k s x.tr = z
    by_cases c1 : x.iStep = min
    · have c2 : x.iStep ≥ min := by omega
      rw [if_pos c1, if_pos c2, if_pos c1]
      by_cases c3 : x.iStep % k = 0 <;> simp [see, Ev.apply, Seen.told, c3, c2]
    · rw [if_neg c1, if_neg c1]
      by_cases c2 : x.iStep ≥ min
      · by_cases c3 : x.iStep % k = 0 <;> simp [see, Ev.apply, Seen.told, c3, c2]
      · simp [see, c2]

theorem fold_frames (k min : ℕ) (n b : ℕ) (l : List ℕ) (hb : b ≤ min) (hn : min < b + n) :
    (List.range' b n).foldl (fun l i =>
      (if i = min then [] else l) ++ (if i ≥ min ∧ i % k = 0 then [i] else [])) l =
    (List.range' min (b + n - min)).filter (fun i => i % k = 0) := by
  have tail : ∀ (m c : ℕ) (l : List ℕ), min < c → (List.range' c m).foldl (fun l i =>
      (if i = min then [] else l) ++ (if i ≥ min ∧ i % k = 0 then [i] else [])) l =
      l ++ (List.range' c m).filter (fun i => i % k = 0) := by
    intro m
    induction m with
    | zero => intro c l _; simp
    | succ m ih =>
      intro c l hc
      rw [List.range'_succ, List.foldl_cons, ih _ _ (by omega), if_neg (by omega)]
      have : c ≥ min := by omega
      by_cases h3 : c % k = 0 <;> simp [h3, this]
  induction n generalizing b l with
  | zero => omega
  | succ n ih =>
    rw [List.range'_succ, List.foldl_cons]
    by_cases hc : b = min
    · subst hc
      rw [tail _ _ _ (by omega), if_pos rfl]
      have e : b + (n + 1) - b = n + 1 := by omega
      rw [e, List.range'_succ]
      by_cases h3 : b % k = 0 <;> simp [h3]
    · rw [ih _ _ (by omega) (by omega)]
      congr 2
      omega

/-- **C80 (trajectories).** With base interval 1, `analyzeTrajectory(min, max)` of a file with more than
`min` frames samples at every multiple of the interval from `min` to `max` for which there is a frame.
The number of frames written is right only if the file has more than `max` frames; otherwise it is one
too large. -/
theorem C80_trajectory (mc : Bool) (p : Pars) (k min max frames : ℕ) (hb : p.base = 1)
    (hz : 0 < p.size) (hlt : min < max) (hf : min < frames) (x : Seen) :
    ∃ tr, analyzeTrajectory mc p min max frames =
        ok (tr, Min.min (max + 1) frames - min + (if frames ≤ max then 1 else 0)) ∧
      (see true k x tr).told =
        (List.range' min (Min.min (max + 1) frames - min)).filter (fun i => i % k = 0) := by
  unfold analyzeTrajectory
  rw [check_true (by cases mc <;> simp <;> omega), ok_bind]
  obtain ⟨y, e1, e2, e3⟩ := frameLoop_ok p hb min max frames (max + 2) ⟨[], 0, true⟩ rfl
    (Nat.zero_le _) (Nat.zero_le _) (by simp)
  rw [e1, ok_bind]
  refine ⟨y.tr ++ [Ev.output], ?_, ?_⟩
  · congr 2
    rw [e2]
    by_cases hc : frames ≤ max
    · rw [if_pos hc, if_pos hc]
      have : Min.min (max + 1) frames = frames := Nat.min_eq_right (by omega)
      rw [this]; omega
    · rw [if_neg hc, if_neg hc]
      have : Min.min (max + 1) frames = max + 1 := Nat.min_eq_left (by omega)
      rw [this]; omega
  · rw [see_append]
    have h2 : ∀ z, see true k z [Ev.output] = z := fun _ => rfl
    have hmin : min < 0 + Min.min (max + 1) frames := by
      rw [Nat.zero_add]; exact Nat.lt_min.2 ⟨by omega, hf⟩
    rw [h2, e3]
    dsimp only
    rw [Nat.sub_zero, fold_frames k min _ 0 _ (Nat.zero_le _) hmin, Nat.zero_add]

/-- **C80 (trajectories, violated for other base intervals).** With a base interval above 1,
`analyzeTrajectory` of a file with two frames from `min` on always throws. -/
theorem C80_trajectory_violated (mc : Bool) (p : Pars) (min max frames : ℕ) (hb : 1 < p.base)
    (hf : min + 1 < frames) (hlt : min < max) : analyzeTrajectory mc p min max frames = throw := by
  have bad : ∀ i, ¬ i % p.base = 0 → managerSample p i = throw := by
    intro i hi
    unfold managerSample
    rw [check_true (by omega), ok_bind, check_false hi]; rfl
  have good : ∀ i, i % p.base = 0 → managerSample p i = ok [Ev.sample i] := by
    intro i hi
    unfold managerSample
    rw [check_true (by omega), ok_bind, check_true hi, ok_bind]
  have next : ¬ (min % p.base = 0 ∧ (min + 1) % p.base = 0) := by
    rintro ⟨h0, h⟩
    have h2 := (Nat.dvd_add_right (Nat.dvd_of_mod_eq_zero h0)).1 (Nat.dvd_of_mod_eq_zero h)
    have := Nat.le_of_dvd Nat.one_pos h2
    omega
  have key : ∀ (d : ℕ) (fuel : ℕ) (x : Frames), x.hasFrame = true → x.iStep + d = min → d + 2 ≤ fuel →
      frameLoop p min max frames fuel x = throw := by
    intro d
    induction d with
    | zero =>
      intro fuel x hx hd hfu
      obtain ⟨fuel, rfl⟩ : ∃ f, fuel = f + 1 + 1 := ⟨fuel - 2, by omega⟩
      rw [frameLoop, if_pos ⟨by omega, hx⟩, if_pos (by omega)]
      have hi : x.iStep = min := by omega
      by_cases h0 : min % p.base = 0
      · simp only [hi, ge_iff_le, le_refl, if_true]
        rw [good _ h0, ok_bind, frameLoop, if_pos ⟨by show min + 1 ≤ max; omega, rfl⟩,
          if_pos (by show min + 1 < frames; omega)]
        have hge : min ≤ min + 1 := Nat.le_succ _
        simp only [ge_iff_le, hge, if_true]
        rw [bad _ (fun h => next ⟨h0, h⟩)]; rfl
      · simp only [hi, ge_iff_le, le_refl, if_true]
        rw [bad _ h0]; rfl
    | succ d ih =>
      intro fuel x hx hd hfu
      obtain ⟨fuel, rfl⟩ : ∃ f, fuel = f + 1 := ⟨fuel - 1, by omega⟩
      rw [frameLoop, if_pos ⟨by omega, hx⟩, if_pos (by omega)]
      have hge : ¬ x.iStep ≥ min := by omega
      simp only [hge, if_false]
      rw [ok_bind]
      exact ih _ _ rfl (by show x.iStep + 1 + d = min; omega) (by omega)
  unfold analyzeTrajectory
  by_cases hc : if mc then min ≤ max else min < max ∧ p.base > 0 ∧ p.size > 0
  swap
  · rw [check_false hc]; rfl
  rw [check_true hc, ok_bind,
    key min (max + 2) ⟨[], 0, true⟩ rfl (by simp) (by omega)]
  rfl

end Verif.Schedule
