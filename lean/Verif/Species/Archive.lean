/-
C33: saving a species to an archive and loading it again.
-/
import Verif.Species.RingProps

set_option autoImplicit false

namespace Verif.Species

open Verif.Cpp
open Verif.Cpp.Out

/-! ### Values -/

theorem getInts_put (l : List ℤ) (r : List Tok) :
    getInts l.length (putInts l ++ r) = ok (l, r) := by
  induction l with
  | nil => rfl
  | cons a l ih =>
    simp only [putInts, List.map_cons, List.length_cons, List.cons_append, getInts, getInt,
      ok_bind] at ih ⊢
    rw [ih, ok_bind]

theorem getArr_put (l : List ℤ) (n : ℤ) (h : (l.length : ℤ) = n) (r : List Tok) :
    getArr n (putArr l ++ r) = ok (l, r) := by
  simp only [getArr, putArr, List.cons_append, getInt, ok_bind]
  rw [check_true h, ok_bind, Int.toNat_natCast, getInts_put]

theorem getOpt_put (v : ℤ) (active : Bool) (h : active = true ∨ v = 0) (r : List Tok) :
    getOpt 0 (putOpt v active ++ r) = ok (v, r) := by
  cases active
  · have : v = 0 := by simpa using h
    subst this
    simp [getOpt, putOpt, getBool]
  · simp [getOpt, putOpt, getBool, getInt]

theorem putAngles_get (cfg : Cfg) (always : Bool) (nAtom : ℤ) (t : Tail) (ht : TailOK nAtom t)
    (hc : t.hasA ≠ 0 → cfg.angle = true) (r : List Tok) :
    getAnglesHomo cfg nAtom ((if cfg.angle then putOpt t.hasA (always || decide (t.hasA ≠ 0))
      ++ (if t.hasA ≠ 0 ∧ 0 < t.nA then [Tok.int t.tA] else []) else []) ++ r)
        = ok ((t.hasA, t.nA, t.tA), r) ∧
    getAnglesBlock cfg nAtom ((if cfg.angle then putOpt t.hasA (always || decide (t.hasA ≠ 0))
      ++ (if t.hasA ≠ 0 ∧ 0 < t.nA then [Tok.int t.tA] else []) else []) ++ r)
        = ok ((t.hasA, t.nA, t.tA), r) := by
  by_cases ha : cfg.angle = true
  · have hact : (always || decide (t.hasA ≠ 0)) = true ∨ t.hasA = 0 := by
      by_cases h : t.hasA = 0
      · exact Or.inr h
      · left; simp [h]
    simp only [getAnglesHomo, getAnglesBlock, ha, if_true, List.append_assoc]
    rw [getOpt_put _ _ hact, ok_bind, ok_bind]
    simp only []
    by_cases h : t.hasA ≠ 0
    · obtain ⟨h3, hn⟩ := ht.angle h
      have hpos : 0 < t.nA := by omega
      have hpos' : 0 < nAtom - 2 := by omega
      have hpos2 : 2 < nAtom := by omega
      simp [h, hpos', hpos2, getInt, check, h3, hn]
    · obtain ⟨h1, h2⟩ := ht.noAngle (not_not.mp h)
      simp [not_not.mp h, h1, h2]
  · have h : t.hasA = 0 := by
      by_contra h; exact ha (hc h)
    obtain ⟨h1, h2⟩ := ht.noAngle h
    simp [getAnglesHomo, getAnglesBlock, ha, h, h1, h2]

theorem putDihedrals_get (cfg : Cfg) (always : Bool) (nAtom : ℤ) (t : Tail) (ht : TailOK nAtom t)
    (hc : t.hasD ≠ 0 → cfg.dihedral = true) (r : List Tok) :
    getDihedralsHomo cfg nAtom ((if cfg.dihedral then
      putOpt t.hasD (always || decide (t.hasD ≠ 0))
      ++ (if t.hasD ≠ 0 ∧ 0 < t.nD then [Tok.int t.tD] else []) else []) ++ r)
        = ok ((t.hasD, t.nD, t.tD), r) ∧
    getDihedralsBlock cfg nAtom ((if cfg.dihedral then
      putOpt t.hasD (always || decide (t.hasD ≠ 0))
      ++ (if t.hasD ≠ 0 ∧ 0 < t.nD then [Tok.int t.tD] else []) else []) ++ r)
        = ok ((t.hasD, t.nD, t.tD), r) := by
  by_cases ha : cfg.dihedral = true
  · have hact : (always || decide (t.hasD ≠ 0)) = true ∨ t.hasD = 0 := by
      by_cases h : t.hasD = 0
      · exact Or.inr h
      · left; simp [h]
    simp only [getDihedralsHomo, getDihedralsBlock, ha, if_true, List.append_assoc]
    rw [getOpt_put _ _ hact, ok_bind, ok_bind]
    simp only []
    by_cases h : t.hasD ≠ 0
    · obtain ⟨h3, hn⟩ := ht.dihedral h
      have hpos : 0 < t.nD := by omega
      have hpos' : 3 < nAtom := by omega
      simp [h, hpos, hpos', getInt, check, h3, hn]
    · obtain ⟨h1, h2⟩ := ht.noDihedral (not_not.mp h)
      simp [not_not.mp h, h1, h2]
  · have h : t.hasD = 0 := by
      by_contra h; exact ha (hc h)
    obtain ⟨h1, h2⟩ := ht.noDihedral h
    simp [getDihedralsHomo, getDihedralsBlock, ha, h, h1, h2]

theorem getTail_put (cfg : Cfg) (always : Bool) (nAtom : ℤ) (t : Tail) (ht : TailOK nAtom t)
    (hA : t.hasA ≠ 0 → cfg.angle = true) (hD : t.hasD ≠ 0 → cfg.dihedral = true)
    (r : List Tok) :
    getTailHomo cfg nAtom (putTail cfg always t ++ r) = ok (t, r) ∧
      getTailBlock cfg nAtom (putTail cfg always t ++ r) = ok (t, r) := by
  unfold getTailHomo getTailBlock putTail
  rw [List.append_assoc]
  have h1 := putAngles_get cfg always nAtom t ht hA ((if cfg.dihedral then
      putOpt t.hasD (always || decide (t.hasD ≠ 0))
      ++ (if t.hasD ≠ 0 ∧ 0 < t.nD then [Tok.int t.tD] else []) else []) ++ r)
  have h2 := putDihedrals_get cfg always nAtom t ht hD r
  rw [h1.1, h1.2, ok_bind, ok_bind]
  simp only []
  rw [h2.1, h2.2, ok_bind]
  exact ⟨rfl, rfl⟩

/-! ### Classes that round trip -/

/-- **Homopolymers.** -/
theorem C33_homopolymer {cfg : Cfg} {f g : PFile} {h : Homo} (hr : readHomo cfg f = ok (h, g))
    (r : List Tok) : loadHomo cfg (saveHomo cfg h ++ r) = ok (h, r) := by
  unfold readHomo at hr
  obtain ⟨⟨cap, f1⟩, -, hr⟩ := bind_eq_ok.mp hr
  obtain ⟨⟨n, f2⟩, -, hr⟩ := bind_eq_ok.mp hr
  obtain ⟨⟨ta, f3⟩, -, hr⟩ := bind_eq_ok.mp hr
  obtain ⟨⟨tb, f4⟩, -, hr⟩ := bind_eq_ok.mp hr
  obtain ⟨⟨t, f5⟩, ht, hr⟩ := bind_eq_ok.mp hr
  obtain ⟨s, hs, hr⟩ := bind_eq_ok.mp hr
  obtain ⟨_, hv, hr⟩ := bind_eq_ok.mp hr
  simp only [Out.ok.injEq, Prod.mk.injEq] at hr hs hv
  obtain ⟨rfl, -⟩ := hr
  obtain ⟨h1, h2, h3⟩ := readTail_spec ht
  simp only [loadHomo, saveHomo, List.cons_append, List.nil_append, getInt, ok_bind]
  rw [(getTail_put cfg false n t h1 h2 h3 r).1, ok_bind]
  simp only []
  rw [hs, ok_bind, hv, ok_bind]

/-- **Diblocks.** -/
theorem C33_diblock {cfg : Cfg} {f g : PFile} {h : Diblock}
    (hr : readDiblock cfg f = ok (h, g)) (r : List Tok) :
    loadDiblock cfg (saveDiblock cfg h ++ r) = ok (h, r) := by
  unfold readDiblock at hr
  obtain ⟨⟨cap, f1⟩, -, hr⟩ := bind_eq_ok.mp hr
  obtain ⟨⟨l, f2⟩, -, hr⟩ := bind_eq_ok.mp hr
  obtain ⟨_, hl0, hr⟩ := bind_eq_ok.mp hr
  obtain ⟨_, hl1, hr⟩ := bind_eq_ok.mp hr
  obtain ⟨⟨a, f3⟩, -, hr⟩ := bind_eq_ok.mp hr
  obtain ⟨⟨tb, f4⟩, -, hr⟩ := bind_eq_ok.mp hr
  obtain ⟨⟨t, f5⟩, ht, hr⟩ := bind_eq_ok.mp hr
  obtain ⟨s, hs, hr⟩ := bind_eq_ok.mp hr
  obtain ⟨_, hv, hr⟩ := bind_eq_ok.mp hr
  simp only [Out.ok.injEq, Prod.mk.injEq] at hr hs hv
  obtain ⟨rfl, -⟩ := hr
  simp only [check_eq_ok] at hl0 hl1
  obtain ⟨h1, h2, h3⟩ := readTail_spec ht
  simp only [loadDiblock, saveDiblock, List.cons_append, List.nil_append, getInt, ok_bind]
  rw [check_true hl0, ok_bind, check_true hl1, ok_bind,
    (getTail_put cfg true _ t h1 h2 h3 r).2, ok_bind]
  simp only []
  rw [hs, ok_bind, hv, ok_bind]

/-- **Point particles.** -/
theorem C33_point {cfg : Cfg} {f g : PFile} {h : Point} (hr : readPoint cfg f = ok (h, g))
    (r : List Tok) : loadPoint cfg (savePoint h ++ r) = ok (h, r) := by
  unfold readPoint at hr
  obtain ⟨⟨cap, f1⟩, -, hr⟩ := bind_eq_ok.mp hr
  obtain ⟨⟨t, f2⟩, -, hr⟩ := bind_eq_ok.mp hr
  obtain ⟨s, hs, hr⟩ := bind_eq_ok.mp hr
  obtain ⟨_, hv, hr⟩ := bind_eq_ok.mp hr
  simp only [Out.ok.injEq, Prod.mk.injEq] at hr hs hv
  obtain ⟨rfl, -⟩ := hr
  simp only [loadPoint, savePoint, List.cons_append, List.nil_append, getInt, ok_bind]
  rw [hs, ok_bind, hv, ok_bind]

/-- A point particle. -/
example : ∃ s, readPoint ⟨true, true⟩ [("moleculeCapacity", [7]), ("type", [2])] =
    ok (⟨7, 2, s⟩, []) ∧ s.types = [2] := ⟨_, rfl, rfl⟩

/-! ### Species defined by explicit groups -/

theorem groupsOf_spec (N n : ℕ) (vs : List ℤ) (h : vs.length = n * (N + 1)) :
    (groupsOf N n vs).length = n ∧ ∀ g ∈ groupsOf N n vs, g.atoms.length = N := by
  induction n generalizing vs with
  | zero => simp [groupsOf]
  | succ n ih =>
    have hN : N + 1 ≤ vs.length := by rw [h]; nlinarith
    have := ih (vs.drop (N + 1)) (by rw [List.length_drop, h, Nat.succ_mul]; omega)
    simp only [groupsOf, List.length_cons, List.mem_cons, forall_eq_or_imp, List.length_take,
      this.1, true_and]
    exact ⟨by omega, this.2⟩

/-- Groups read from a file: as many as declared, each of the right size, not
yet registered with atoms. -/
theorem readPart_spec {N : ℕ} {l1 l2 : String} {nAtom : ℤ} {f g : PFile} {p : Part}
    (h : readPart N l1 l2 nAtom f = ok (p, g)) :
    ∃ gs : List Grp, p = ⟨gs.length, gs, fun _ => []⟩ ∧ ∀ g ∈ gs, g.atoms.length = N := by
  unfold readPart at h
  obtain ⟨⟨n, f1⟩, -, h⟩ := bind_eq_ok.mp h
  obtain ⟨q, hq, h⟩ := bind_eq_ok.mp h
  simp only [] at h hq
  have hq' : 0 ≤ n ∧ q = ⟨n, List.replicate n.toNat (nullGrp N), fun _ => []⟩ := by
    unfold allocPart at hq
    obtain ⟨_, -, hq⟩ := bind_eq_ok.mp hq
    obtain ⟨_, h0, hq⟩ := bind_eq_ok.mp hq
    cases hq
    exact ⟨check_eq_ok.mp h0, rfl⟩
  obtain ⟨hn, rfl⟩ := hq'
  obtain ⟨m, rfl⟩ := Int.eq_ofNat_of_zero_le hn
  by_cases hp : 0 < (m : ℤ)
  · rw [if_pos hp] at h
    obtain ⟨⟨vs, f2⟩, hvs, h⟩ := bind_eq_ok.mp h
    simp only [Out.ok.injEq, Prod.mk.injEq] at h
    obtain ⟨rfl, -⟩ := h
    have hlen : vs.length = m * (N + 1) := by
      have := readArr_length hvs; exact_mod_cast this
    have hspec := groupsOf_spec N m vs hlen
    refine ⟨groupsOf N m vs, ?_, hspec.2⟩
    simp [hspec.1]
  · rw [if_neg hp] at h
    simp only [Out.ok.injEq, Prod.mk.injEq] at h
    obtain ⟨rfl, -⟩ := h
    have : m = 0 := by omega
    subst this
    exact ⟨[], rfl, by simp⟩

theorem readPartIf_spec {c : Bool} {N : ℕ} {l1 l2 : String} {nAtom : ℤ} {f g : PFile} {p : Part}
    (h : readPartIf c N l1 l2 nAtom f = ok (p, g)) :
    ∃ gs : List Grp, p = ⟨gs.length, gs, fun _ => []⟩ ∧ (∀ g ∈ gs, g.atoms.length = N) ∧
      (c = false → gs = []) := by
  unfold readPartIf at h
  cases c
  · simp only [Bool.false_eq_true, if_false, Out.ok.injEq, Prod.mk.injEq] at h
    obtain ⟨rfl, -⟩ := h
    exact ⟨[], rfl, by simp, fun _ => rfl⟩
  · simp only [if_true] at h
    obtain ⟨gs, h1, h2⟩ := readPart_spec h
    exact ⟨gs, h1, h2, fun h => by cases h⟩

theorem getGrp_put (N : ℕ) (g : Grp) (h : g.atoms.length = N) (r : List Tok) :
    getGrp N (putGrp g ++ r) = ok (g, r) := by
  subst h
  simp only [getGrp, putGrp, List.append_assoc]
  rw [getInts_put, ok_bind]
  simp only [List.cons_append, List.nil_append, getInt, ok_bind]

theorem getGrps_put (N : ℕ) (gs : List Grp) (h : ∀ g ∈ gs, g.atoms.length = N) (r : List Tok) :
    getGrps N gs.length (gs.flatMap putGrp ++ r) = ok (gs, r) := by
  induction gs with
  | nil => rfl
  | cons g gs ih =>
    simp only [List.flatMap_cons, List.length_cons, getGrps, List.append_assoc]
    rw [getGrp_put N g (h g (by simp)), ok_bind]
    simp only []
    rw [ih fun x hx => h x (by simp [hx]), ok_bind]

/-- Reading back an archived set of groups gives the same groups, not yet
registered with atoms. -/
theorem getPart_put (N : ℕ) (nAtom : ℤ) (hn : 0 < nAtom) (gs : List Grp)
    (h : ∀ g ∈ gs, g.atoms.length = N) (ids : ℕ → List ℤ) (r : List Tok) :
    getPart N nAtom (putPart ⟨gs.length, gs, ids⟩ ++ r) =
      ok (⟨gs.length, gs, fun _ => []⟩, r) := by
  simp only [getPart, putPart, List.cons_append, getInt, ok_bind, allocPart]
  rw [check_true hn, ok_bind, check_true (by omega), ok_bind]
  by_cases hp : 0 < (gs.length : ℤ)
  · simp only [hp, if_true, List.cons_append, ok_bind]
    rw [check_true trivial, ok_bind, Int.toNat_natCast, getGrps_put N gs h, ok_bind]
  · have : gs = [] := List.length_eq_zero_iff.mp (by omega)
    subst this
    simp

theorem getPartIf_put (c : Bool) (N : ℕ) (nAtom : ℤ) (hn : 0 < nAtom) (gs : List Grp)
    (h : ∀ g ∈ gs, g.atoms.length = N) (hc : c = false → gs = []) (ids : ℕ → List ℤ)
    (r : List Tok) :
    getPartIf c N nAtom ((if c then putPart ⟨gs.length, gs, ids⟩ else []) ++ r) =
      ok (⟨gs.length, gs, fun _ => []⟩, r) := by
  cases c
  · have := hc rfl
    subst this
    simp [getPartIf, Part.none]
  · simp only [getPartIf, if_true]
    exact getPart_put N nAtom hn gs h ids r

/-- The result of `readBase`: the structure before and after registration. -/
theorem readBase_spec {cfg : Cfg} {f g : PFile} {b : Base} (hr : readBase cfg f = ok (b, g)) :
    ∃ (m : ℕ) (ts : List ℤ) (gb ga gd : List Grp) (pb pa pd : Part),
      0 < m ∧ ts.length = m ∧
      (∀ g ∈ gb, g.atoms.length = 2) ∧ (∀ g ∈ ga, g.atoms.length = 3) ∧
      (∀ g ∈ gd, g.atoms.length = 4) ∧ (cfg.angle = false → ga = []) ∧
      (cfg.dihedral = false → gd = []) ∧
      initIds maxBond m ⟨gb.length, gb, fun _ => []⟩ = ok pb ∧
      initIds maxAngle m ⟨ga.length, ga, fun _ => []⟩ = ok pa ∧
      initIds maxDihedral m ⟨gd.length, gd, fun _ => []⟩ = ok pd ∧
      b.sp = ⟨m, ts, pb, pa, pd⟩ ∧ isValid false b.sp = ok () := by
  unfold readBase at hr
  obtain ⟨⟨cap, f1⟩, -, hr⟩ := bind_eq_ok.mp hr
  obtain ⟨⟨n, f2⟩, -, hr⟩ := bind_eq_ok.mp hr
  obtain ⟨_, hal, hr⟩ := bind_eq_ok.mp hr
  obtain ⟨⟨ts, f3⟩, hts, hr⟩ := bind_eq_ok.mp hr
  obtain ⟨⟨qb, f4⟩, hqb, hr⟩ := bind_eq_ok.mp hr
  obtain ⟨⟨qa, f5⟩, hqa, hr⟩ := bind_eq_ok.mp hr
  obtain ⟨⟨qd, f6⟩, hqd, hr⟩ := bind_eq_ok.mp hr
  obtain ⟨_, hn, hr⟩ := bind_eq_ok.mp hr
  obtain ⟨pb, hpb, hr⟩ := bind_eq_ok.mp hr
  obtain ⟨pa, hpa, hr⟩ := bind_eq_ok.mp hr
  obtain ⟨pd, hpd, hr⟩ := bind_eq_ok.mp hr
  obtain ⟨_, hv, hr⟩ := bind_eq_ok.mp hr
  simp only [Out.ok.injEq, Prod.mk.injEq] at hr hpb hpa hpd hv
  obtain ⟨rfl, -⟩ := hr
  have hn' : 0 < n := check_eq_ok.mp hn
  obtain ⟨m, rfl⟩ := Int.eq_ofNat_of_zero_le hn'.le
  obtain ⟨gb, rfl, hgb⟩ := readPart_spec hqb
  obtain ⟨ga, rfl, hga, hca⟩ := readPartIf_spec hqa
  obtain ⟨gd, rfl, hgd, hcd⟩ := readPartIf_spec hqd
  refine ⟨m, ts, gb, ga, gd, pb, pa, pd, by omega, ?_, hgb, hga, hgd, hca, hcd, hpb, hpa, hpd,
    rfl, hv⟩
  have := readArr_length hts
  exact_mod_cast this

theorem initIds_part {cap : ℕ} {nAtom : ℤ} {gs : List Grp} {p : Part}
    (h : initIds cap nAtom ⟨gs.length, gs, fun _ => []⟩ = ok p) :
    ∃ ids, p = ⟨gs.length, gs, ids⟩ :=
  ⟨_, ((initIds_fresh cap nAtom gs.length gs rfl p).mp h).2.2⟩

/-- **Generic species.** -/
theorem C33_species {cfg : Cfg} {f g : PFile} {b : Base} (hr : readBase cfg f = ok (b, g))
    (r : List Tok) : loadBase cfg (saveBase cfg b ++ r) = ok (b, r) := by
  obtain ⟨m, ts, gb, ga, gd, pb, pa, pd, hm, hts, hgb, hga, hgd, hca, hcd, hpb, hpa, hpd, hsp, hv⟩
    := readBase_spec hr
  obtain ⟨cap, sp⟩ := b
  simp only at hsp hv
  subst hsp
  obtain ⟨ib, rfl⟩ := initIds_part hpb
  obtain ⟨ia, rfl⟩ := initIds_part hpa
  obtain ⟨id, rfl⟩ := initIds_part hpd
  have hm' : (0 : ℤ) < m := by omega
  simp only [loadBase, saveBase, List.cons_append, List.nil_append, List.append_assoc, getInt,
    ok_bind]
  have hat : allocAtoms m = ok (List.replicate m (-1)) := by
    unfold allocAtoms; rw [check_true hm', ok_bind, Int.toNat_natCast]
  rw [hat, ok_bind, getArr_put ts m (by exact_mod_cast hts), ok_bind]
  simp only []
  rw [getPart_put 2 m hm' gb hgb, ok_bind]
  simp only []
  rw [getPartIf_put cfg.angle 3 m hm' ga hga hca, ok_bind]
  simp only []
  rw [getPartIf_put cfg.dihedral 4 m hm' gd hgd hcd, ok_bind]
  simp only []
  rw [check_true hm', ok_bind, hpb, ok_bind, hpa, ok_bind, hpd, ok_bind, hv, ok_bind]

/-- **Generic species are valid** (C32): whatever the parameter file, a species
that is accepted has consistent bonds, angles and dihedrals. -/
theorem C32_species {cfg : Cfg} {f g : PFile} {b : Base} (hr : readBase cfg f = ok (b, g)) :
    (b.sp.types.length : ℤ) = b.sp.nAtom ∧ (∀ t ∈ b.sp.types, 0 ≤ t) ∧
      PartOK 2 b.sp.nAtom b.sp.bonds ∧ PartOK 3 b.sp.nAtom b.sp.angles ∧
      PartOK 4 b.sp.nAtom b.sp.dihedrals := by
  obtain ⟨m, ts, gb, ga, gd, pb, pa, pd, hm, hts, hgb, hga, hgd, hca, hcd, hpb, hpa, hpd, hsp, hv⟩
    := readBase_spec hr
  have ht := isValid_types hv
  rw [hsp] at hv ht ⊢
  have aux : ∀ (N cap : ℕ) (gs : List Grp) (p : Part), (∀ g ∈ gs, g.atoms.length = N) →
      initIds cap m ⟨gs.length, gs, fun _ => []⟩ = ok p → partValid N m p = ok () →
      PartOK N m p := by
    intro N cap gs p hs hi hvp
    obtain ⟨h1, -, rfl⟩ := (initIds_fresh cap m gs.length gs rfl p).mp hi
    by_cases hp : 0 < (gs.length : ℤ)
    · exact (partValid_iff N m _ hp hs).mp hvp
    · have : gs = [] := List.length_eq_zero_iff.mp (by omega)
      subst this
      exact partOK_zero N m
  unfold isValid at hv
  obtain ⟨_, -, hv⟩ := bind_eq_ok.mp hv
  obtain ⟨_, -, hv⟩ := bind_eq_ok.mp hv
  obtain ⟨_, v2, hv⟩ := bind_eq_ok.mp hv
  obtain ⟨_, v3, v4⟩ := bind_eq_ok.mp hv
  refine ⟨by simp only []; exact_mod_cast hts, by simpa using ht, aux 2 _ gb pb hgb hpb v2,
    aux 3 _ ga pa hga hpa v3, aux 4 _ gd pd hgd hpd v4⟩

/-- A molecule of three atoms with two bonds and an angle. -/
example : ∃ b, readBase ⟨true, false⟩ [("moleculeCapacity", [3]), ("nAtom", [3]),
    ("atomTypeIds", [0, 1, 0]), ("nBond", [2]), ("speciesBonds", [0, 1, 0, 1, 2, 0]),
    ("nAngle", [1]), ("speciesAngles", [0, 1, 2, 5])] = ok (b, []) ∧
    b.sp.angles.grps = [⟨[0, 1, 2], 5⟩] ∧ b.sp.bonds.ids 1 = [0, 1] := ⟨_, rfl, rfl, rfl⟩

/-! ### Classes that do not round trip -/

/-- **Rings are not restored.** Whatever ring is saved, loading leaves one
value unread: the capacity is taken from the species id, the number of atoms
from the capacity and the atom type from the number of atoms. -/
theorem C33_homoRing_misread {cfg : Cfg} {id : ℤ} {h h' : Ring} {r r' : List Tok}
    (hl : loadRing cfg (saveRing id h ++ r) = ok (h', r')) :
    r' = Tok.int h.type :: r ∧ h'.capacity = id ∧ h'.nAtom = h.capacity ∧ h'.type = h.nAtom := by
  simp only [loadRing, saveRing, List.cons_append, List.nil_append, getInt, ok_bind] at hl
  obtain ⟨s, hs, hl⟩ := bind_eq_ok.mp hl
  obtain ⟨_, hv, hl⟩ := bind_eq_ok.mp hl
  simp only [Out.ok.injEq, Prod.mk.injEq] at hl
  obtain ⟨rfl, rfl⟩ := hl
  exact ⟨rfl, rfl, rfl, rfl⟩

/-- The wrong ring is accepted without an error whenever the capacity is a
possible number of atoms. -/
theorem C33_homoRing_wrong (cfg : Cfg) (id : ℤ) (h : Ring) (h4 : 4 ≤ h.capacity)
    (h0 : 0 ≤ h.nAtom) (r : List Tok) :
    ∃ s, loadRing cfg (saveRing id h ++ r) = ok (⟨id, h.capacity, h.nAtom, s⟩,
      Tok.int h.type :: r) ∧ RingOK cfg h.capacity h.nAtom s := by
  obtain ⟨m, hm⟩ := Int.eq_ofNat_of_zero_le (show 0 ≤ h.capacity by omega)
  obtain ⟨s, hs, hring, -, -⟩ := buildRing_ok cfg m (by omega) h.nAtom
  have hok := hring fun _ => by omega
  refine ⟨s, ?_, by rw [hm]; exact hok⟩
  simp only [loadRing, saveRing, List.cons_append, List.nil_append, getInt, ok_bind]
  rw [hm, hs, ok_bind, hok.valid h0, ok_bind]

/-- A ring of five atoms saved with capacity ten comes back as a ring of ten
atoms. -/
example (s : Sp) : ∃ s', loadRing ⟨true, true⟩ (saveRing 0 ⟨10, 5, 1, s⟩) =
    ok (⟨0, 10, 5, s'⟩, [Tok.int 1]) := by
  obtain ⟨s', hs, -⟩ := C33_homoRing_wrong ⟨true, true⟩ 0 ⟨10, 5, 1, s⟩ (by norm_num)
    (by norm_num) []
  exact ⟨s', hs⟩

theorem getInts_append (l : List ℤ) (n : ℕ) (h : l.length = n) (r : List Tok) :
    getInts n (putInts l ++ r) = ok (l, r) := by
  subst h; exact getInts_put l r

theorem blockBegins_length (s : ℤ) (ls : List ℤ) : (blockBegins s ls).length = ls.length := by
  induction ls generalizing s with
  | nil => rfl
  | cons l ls ih => simp [blockBegins, ih]

/-- **Multiblocks are not restored.** Loading what was saved for a multiblock
never finishes at the end of the saved data: it throws, or leaves values
unread. -/
theorem C33_multiblock_wrong {cfg : Cfg} {f g : PFile} {h : Multi}
    (hr : readMulti cfg f = ok (h, g)) (r : List Tok) (h' : Multi) :
    loadMulti cfg (saveMulti cfg h ++ r) ≠ ok (h', r) := by
  -- shape of the saved object
  have hshape : ∃ n : ℕ, h.lens.length = n + 1 ∧ h.types.length = n + 1 ∧
      h.begins.length = n + 1 := by
    unfold readMulti at hr
    obtain ⟨⟨cap, f1⟩, -, hr⟩ := bind_eq_ok.mp hr
    obtain ⟨⟨n, f2⟩, -, hr⟩ := bind_eq_ok.mp hr
    obtain ⟨_, hn, hr⟩ := bind_eq_ok.mp hr
    obtain ⟨⟨ls, f3⟩, hls, hr⟩ := bind_eq_ok.mp hr
    obtain ⟨_, hl1, hr⟩ := bind_eq_ok.mp hr
    obtain ⟨⟨ts, f4⟩, hts, hr⟩ := bind_eq_ok.mp hr
    obtain ⟨_, ht1, hr⟩ := bind_eq_ok.mp hr
    obtain ⟨⟨tb, f4⟩, -, hr⟩ := bind_eq_ok.mp hr
    obtain ⟨⟨t, f5⟩, ht, hr⟩ := bind_eq_ok.mp hr
    obtain ⟨s, hs, hr⟩ := bind_eq_ok.mp hr
    obtain ⟨_, hv, hr⟩ := bind_eq_ok.mp hr
    simp only [Out.ok.injEq, Prod.mk.injEq] at hr
    obtain ⟨rfl, -⟩ := hr
    have e1 := readArr_length hls
    have e2 := readArr_length hts
    have hn' : 0 < n := check_eq_ok.mp hn
    refine ⟨(n - 1).toNat, ?_, ?_, ?_⟩
    · simp only []; omega
    · simp only []; omega
    · simp only [blockBegins_length]; omega
  obtain ⟨n, e1, e2, e3⟩ := hshape
  obtain ⟨cap, nb, lens, types, begins, bt, tail, sp⟩ := h
  simp only at e1 e2 e3
  obtain ⟨l0, ls, rfl⟩ := List.exists_cons_of_length_eq_add_one e1
  obtain ⟨t0, ts, rfl⟩ := List.exists_cons_of_length_eq_add_one e2
  obtain ⟨b0, bs, rfl⟩ := List.exists_cons_of_length_eq_add_one e3
  simp only [List.length_cons, Nat.add_right_cancel_iff] at e1 e2 e3
  intro hl
  simp only [loadMulti, saveMulti, putArr, putInts, List.map_cons, List.cons_append,
    List.nil_append, List.append_assoc, getInt, ok_bind, List.length_cons, getArr] at hl
  obtain ⟨_, -, hl⟩ := bind_eq_ok.mp hl
  obtain ⟨⟨ls', r1⟩, h1, hl⟩ := bind_eq_ok.mp hl
  obtain ⟨_, c1, h1⟩ := bind_eq_ok.mp h1
  have c1 := check_eq_ok.mp c1
  obtain ⟨_, -, hl⟩ := bind_eq_ok.mp hl
  -- the first array takes the tail of the lengths and the next capacity
  have g1 := getInts_append (ls ++ [((ts.length + 1 : ℕ) : ℤ)]) (n + 1) (by simp [e1])
  simp only [putInts, List.map_append, List.map_cons, List.map_nil, List.append_assoc,
    List.cons_append, List.nil_append] at g1
  rw [c1, Int.toNat_natCast, e1, g1] at h1
  simp only [Out.ok.injEq, Prod.mk.injEq] at h1
  obtain ⟨rfl, rfl⟩ := h1
  simp only [getInt, ok_bind] at hl
  obtain ⟨⟨ts', r2⟩, h2, hl⟩ := bind_eq_ok.mp hl
  obtain ⟨_, c2, h2⟩ := bind_eq_ok.mp h2
  have c2 := check_eq_ok.mp c2
  obtain ⟨_, -, hl⟩ := bind_eq_ok.mp hl
  have g2 := getInts_append (ts ++ [((bs.length + 1 : ℕ) : ℤ)]) (n + 1) (by simp [e2])
  simp only [putInts, List.map_append, List.map_cons, List.map_nil, List.append_assoc,
    List.cons_append, List.nil_append] at g2
  rw [c2, Int.toNat_natCast, e1, g2] at h2
  simp only [Out.ok.injEq, Prod.mk.injEq] at h2
  obtain ⟨rfl, rfl⟩ := h2
  simp only [getInt, ok_bind] at hl
  obtain ⟨⟨t, r3⟩, h3, hl⟩ := bind_eq_ok.mp hl
  obtain ⟨_, -, hl⟩ := bind_eq_ok.mp hl
  obtain ⟨_, -, hl⟩ := bind_eq_ok.mp hl
  simp only [Out.ok.injEq, Prod.mk.injEq] at hl
  obtain ⟨-, rfl⟩ := hl
  -- what is left for the optional parts starts with an integer
  obtain ⟨z, rest, hz, hlen⟩ : ∃ z rest, bs.map Tok.int ++ (Tok.int bt :: (putTail cfg true tail ++ r3))
      = Tok.int z :: rest ∧ r3.length ≤ rest.length := by
    cases bs with
    | nil => exact ⟨bt, _, rfl, by simp⟩
    | cons b bs =>
      exact ⟨b, bs.map Tok.int ++ (Tok.int bt :: (putTail cfg true tail ++ r3)), rfl, by
        simp only [List.length_append, List.length_cons]; omega⟩
  rw [hz] at h3
  unfold getTailBlock at h3
  by_cases ha : cfg.angle = true
  · simp [getAnglesBlock, ha, getOpt, getBool] at h3
  · simp only [getAnglesBlock, ha, Bool.false_eq_true, if_false, ok_bind] at h3
    by_cases hd : cfg.dihedral = true
    · simp [getDihedralsBlock, hd, getOpt, getBool] at h3
    · simp only [getDihedralsBlock, hd, Bool.false_eq_true, if_false, ok_bind, Out.ok.injEq,
        Prod.mk.injEq] at h3
      have := congrArg List.length h3.2
      simp only [List.length_cons] at this
      omega

/-- The hypotheses are met by the multiblock of `C32_multiblock_exists`, with
angles. -/
example : ∃ h g, readMulti ⟨true, false⟩ (multiFile 4 0 [2, 1, 3] [0, 1, 0] (some 5) none) =
      ok (h, g) ∧ ∀ h', loadMulti ⟨true, false⟩ (saveMulti ⟨true, false⟩ h) ≠ ok (h', []) := by
  obtain ⟨s, hs⟩ := C32_multiblock_exists ⟨true, false⟩ 4 0 [2, 1, 3] [0, 1, 0] (some 5) none []
    (by simp [Foreign]) (by simp) (by simp) (by simp) (by simp) rfl (by decide) (by simp; decide)
    (by simp)
  refine ⟨_, _, by simpa using hs, fun h' => ?_⟩
  have := C33_multiblock_wrong hs [] h'
  simpa using this

end Verif.Species
