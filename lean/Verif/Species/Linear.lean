/-
C32 for the linear species classes: homopolymer, diblock, multiblock and the
mutable homopolymer.
-/
import Verif.Species.Props
import Mathlib.Data.List.GetD

set_option autoImplicit false

namespace Verif.Species

open Verif.Cpp
open Verif.Cpp.Out

/-- Consistency of the optional members with the number of atoms. -/
structure TailOK (nAtom : ℤ) (t : Tail) : Prop where
  angle : t.hasA ≠ 0 → 3 ≤ nAtom ∧ t.nA = nAtom - 2
  noAngle : t.hasA = 0 → t.nA = 0 ∧ t.tA = -1
  dihedral : t.hasD ≠ 0 → 4 ≤ nAtom ∧ t.nD = nAtom - 3
  noDihedral : t.hasD = 0 → t.nD = 0 ∧ t.tD = -1

theorem readAngles_spec {cfg : Cfg} {nAtom : ℤ} {f g : PFile} {a : ℤ × ℤ × ℤ}
    (h : readAngles cfg nAtom f = ok (a, g)) :
    (a.1 ≠ 0 → cfg.angle = true ∧ 3 ≤ nAtom ∧ a.2.1 = nAtom - 2) ∧
      (a.1 = 0 → a.2.1 = 0 ∧ a.2.2 = -1) := by
  unfold readAngles at h
  by_cases hc : cfg.angle = true
  · rw [if_pos hc] at h
    obtain ⟨⟨x, f1⟩, -, h⟩ := bind_eq_ok.mp h
    simp only [] at h
    by_cases hx : x ≠ 0
    · rw [if_pos hx] at h
      obtain ⟨_, h3, h⟩ := bind_eq_ok.mp h
      obtain ⟨⟨t, f2⟩, -, h⟩ := bind_eq_ok.mp h
      simp only [Out.ok.injEq, Prod.mk.injEq] at h
      obtain ⟨rfl, -⟩ := h
      exact ⟨fun _ => ⟨hc, check_eq_ok.mp h3, rfl⟩, fun h0 => absurd h0 hx⟩
    · rw [if_neg hx] at h
      simp only [Out.ok.injEq, Prod.mk.injEq] at h
      obtain ⟨rfl, -⟩ := h
      exact ⟨fun h0 => absurd h0 hx, fun _ => ⟨rfl, rfl⟩⟩
  · rw [if_neg hc] at h
    simp only [Out.ok.injEq, Prod.mk.injEq] at h
    obtain ⟨rfl, -⟩ := h
    exact ⟨fun h0 => absurd rfl h0, fun _ => ⟨rfl, rfl⟩⟩

theorem readDihedrals_spec {cfg : Cfg} {nAtom : ℤ} {f g : PFile} {a : ℤ × ℤ × ℤ}
    (h : readDihedrals cfg nAtom f = ok (a, g)) :
    (a.1 ≠ 0 → cfg.dihedral = true ∧ 4 ≤ nAtom ∧ a.2.1 = nAtom - 3) ∧
      (a.1 = 0 → a.2.1 = 0 ∧ a.2.2 = -1) := by
  unfold readDihedrals at h
  by_cases hc : cfg.dihedral = true
  · rw [if_pos hc] at h
    obtain ⟨⟨x, f1⟩, -, h⟩ := bind_eq_ok.mp h
    simp only [] at h
    by_cases hx : x ≠ 0
    · rw [if_pos hx] at h
      obtain ⟨_, h3, h⟩ := bind_eq_ok.mp h
      obtain ⟨⟨t, f2⟩, -, h⟩ := bind_eq_ok.mp h
      simp only [Out.ok.injEq, Prod.mk.injEq] at h
      obtain ⟨rfl, -⟩ := h
      exact ⟨fun _ => ⟨hc, check_eq_ok.mp h3, rfl⟩, fun h0 => absurd h0 hx⟩
    · rw [if_neg hx] at h
      simp only [Out.ok.injEq, Prod.mk.injEq] at h
      obtain ⟨rfl, -⟩ := h
      exact ⟨fun h0 => absurd h0 hx, fun _ => ⟨rfl, rfl⟩⟩
  · rw [if_neg hc] at h
    simp only [Out.ok.injEq, Prod.mk.injEq] at h
    obtain ⟨rfl, -⟩ := h
    exact ⟨fun h0 => absurd rfl h0, fun _ => ⟨rfl, rfl⟩⟩

theorem readTail_spec {cfg : Cfg} {nAtom : ℤ} {f g : PFile} {t : Tail}
    (h : readTail cfg nAtom f = ok (t, g)) :
    TailOK nAtom t ∧ (t.hasA ≠ 0 → cfg.angle = true) ∧ (t.hasD ≠ 0 → cfg.dihedral = true) := by
  unfold readTail at h
  obtain ⟨⟨a, f1⟩, ha, h⟩ := bind_eq_ok.mp h
  obtain ⟨⟨d, f2⟩, hd, h⟩ := bind_eq_ok.mp h
  simp only [Out.ok.injEq, Prod.mk.injEq] at h
  obtain ⟨rfl, -⟩ := h
  have h1 := readAngles_spec ha
  have h2 := readDihedrals_spec hd
  exact ⟨⟨fun h => (h1.1 h).2, h1.2, fun h => (h2.1 h).2, h2.2⟩, fun h => (h1.1 h).1,
    fun h => (h2.1 h).1⟩

/-- Building a linear molecule with consistent members succeeds for every
chain of at least two atoms. -/
theorem buildTail_ok {nAtom : ℤ} (hm : 2 ≤ nAtom) (f : ℕ → Out ℤ) (ty : ℕ → ℤ)
    (hf : ∀ i : ℕ, (i : ℤ) < nAtom → f i = ok (ty i)) (tb : ℤ) {t : Tail} (ht : TailOK nAtom t) :
    ∃ s, buildTail nAtom f tb t = ok s ∧
      LinearOK nAtom ty tb (t.hasA ≠ 0) t.tA (t.hasD ≠ 0) t.tD s := by
  obtain ⟨m, rfl⟩ := Int.eq_ofNat_of_zero_le (show 0 ≤ nAtom by omega)
  obtain ⟨s, hs, hl⟩ := buildLinear_ok m (by omega) t.hasA t.hasD f ty
    (fun i hi => hf i (by exact_mod_cast hi)) tb t.tA t.tD
    (fun h => by have := (ht.angle h).1; omega) (fun h => by have := (ht.dihedral h).1; omega)
  refine ⟨s, ?_, hl⟩
  unfold buildTail
  have e1 : t.nA = if t.hasA ≠ 0 then (m : ℤ) - 2 else 0 := by
    by_cases h : t.hasA ≠ 0
    · rw [if_pos h]; exact (ht.angle h).2
    · rw [if_neg h]; exact (ht.noAngle (not_not.mp h)).1
  have e2 : t.nD = if t.hasD ≠ 0 then (m : ℤ) - 3 else 0 := by
    by_cases h : t.hasD ≠ 0
    · rw [if_pos h]; exact (ht.dihedral h).2
    · rw [if_neg h]; exact (ht.noDihedral (not_not.mp h)).1
  rw [e1, e2]; exact hs

theorem buildTail_two_le {nAtom : ℤ} {f : ℕ → Out ℤ} {tb : ℤ} {t : Tail} {s : Sp}
    (h : buildTail nAtom f tb t = ok s) : 2 ≤ nAtom := by
  unfold buildTail buildLinear at h
  obtain ⟨_, h, -⟩ := bind_eq_ok.mp h
  exact check_eq_ok.mp h

/-- A linear molecule that was built has the specified structure. -/
theorem buildTail_sound {nAtom : ℤ} {f : ℕ → Out ℤ} {ty : ℕ → ℤ} {tb : ℤ} {t : Tail} {s : Sp}
    (hf : ∀ i : ℕ, (i : ℤ) < nAtom → f i = ok (ty i)) (ht : TailOK nAtom t)
    (h : buildTail nAtom f tb t = ok s) :
    2 ≤ nAtom ∧ LinearOK nAtom ty tb (t.hasA ≠ 0) t.tA (t.hasD ≠ 0) t.tD s := by
  have h2 := buildTail_two_le h
  obtain ⟨s', hs, hl⟩ := buildTail_ok h2 f ty hf tb ht
  rw [hs] at h
  cases h
  exact ⟨h2, hl⟩

theorem isValid_types {mu : Bool} {s : Sp} (h : isValid mu s = ok ()) :
    mu = true ∨ ∀ t ∈ s.types, 0 ≤ t := by
  unfold isValid at h
  obtain ⟨_, -, h⟩ := bind_eq_ok.mp h
  obtain ⟨_, h, -⟩ := bind_eq_ok.mp h
  unfold checkTypes at h
  cases mu
  · right; simpa using h
  · left; rfl

/-! ### Homopolymer -/

/-- **Homopolymers.** A homopolymer read from any parameter file is a linear
molecule of at least two atoms, all of the given non-negative type, with the
groups requested in the file, correctly registered with their atoms. -/
theorem C32_homopolymer {cfg : Cfg} {f g : PFile} {h : Homo} (hr : readHomo cfg f = ok (h, g)) :
    2 ≤ h.nAtom ∧ 0 ≤ h.atomType ∧
      LinearOK h.nAtom (fun _ => h.atomType) h.bondType (h.tail.hasA ≠ 0) h.tail.tA
        (h.tail.hasD ≠ 0) h.tail.tD h.sp := by
  unfold readHomo at hr
  obtain ⟨⟨cap, f1⟩, -, hr⟩ := bind_eq_ok.mp hr
  obtain ⟨⟨n, f2⟩, -, hr⟩ := bind_eq_ok.mp hr
  obtain ⟨⟨ta, f3⟩, -, hr⟩ := bind_eq_ok.mp hr
  obtain ⟨⟨tb, f4⟩, -, hr⟩ := bind_eq_ok.mp hr
  obtain ⟨⟨t, f5⟩, ht, hr⟩ := bind_eq_ok.mp hr
  obtain ⟨s, hs, hr⟩ := bind_eq_ok.mp hr
  obtain ⟨_, hv, hr⟩ := bind_eq_ok.mp hr
  simp only [Out.ok.injEq, Prod.mk.injEq] at hr hs hv
  obtain ⟨rfl, -⟩ := hr
  obtain ⟨h2, hl⟩ := buildTail_sound (ty := fun _ => ta) (fun _ _ => rfl) (readTail_spec ht).1 hs
  refine ⟨h2, ?_, hl⟩
  rcases isValid_types hv with h | h
  · cases h
  · refine h ta ?_
    rw [hl.types]
    exact List.mem_map.mpr ⟨0, List.mem_range.mpr (by omega), rfl⟩

/-- Entries of a parameter file for optional groups. -/
def optEntries (flag typeLabel : String) : Option ℤ → PFile
  | none => []
  | some t => [(flag, [1]), (typeLabel, [t])]

/-- The first entry, if any, does not have one of the optional labels. -/
def Foreign (rest : PFile) : Prop :=
  ∀ e ∈ rest.head?, e.1 ≠ "hasAngles" ∧ e.1 ≠ "hasDihedrals"

/-- The members that correspond to the optional entries. -/
def tailOf (nAtom : ℤ) (a d : Option ℤ) : Tail :=
  ⟨if a.isSome then 1 else 0, if a.isSome then nAtom - 2 else 0, a.getD (-1),
   if d.isSome then 1 else 0, if d.isSome then nAtom - 3 else 0, d.getD (-1)⟩

theorem readOpt_foreign (label : String) (dflt : ℤ) (rest : PFile)
    (h : ∀ e ∈ rest.head?, e.1 ≠ label) : readOpt label dflt rest = ok (dflt, rest) := by
  cases rest with
  | nil => rfl
  | cons e rest =>
    obtain ⟨l, vs⟩ := e
    have : l ≠ label := by simpa using h
    simp [readOpt, this]

theorem tailOf_ok {nAtom : ℤ} {a d : Option ℤ} (ha : a.isSome → 3 ≤ nAtom)
    (hd : d.isSome → 4 ≤ nAtom) : TailOK nAtom (tailOf nAtom a d) := by
  refine ⟨?_, ?_, ?_, ?_⟩ <;> cases a <;> cases d <;> simp_all [tailOf]

theorem readTail_entries (cfg : Cfg) (nAtom : ℤ) (a d : Option ℤ) (rest : PFile)
    (hrest : Foreign rest) (hca : a.isSome → cfg.angle = true)
    (hcd : d.isSome → cfg.dihedral = true) (ha : a.isSome → 3 ≤ nAtom)
    (hd : d.isSome → 4 ≤ nAtom) :
    readTail cfg nAtom (optEntries "hasAngles" "angleType" a
      ++ optEntries "hasDihedrals" "dihedralType" d ++ rest) =
      ok (tailOf nAtom a d, rest) := by
  have h2 : readDihedrals cfg nAtom (optEntries "hasDihedrals" "dihedralType" d ++ rest) =
      ok ((if d.isSome then 1 else 0, if d.isSome then nAtom - 3 else 0, d.getD (-1)), rest) := by
    unfold readDihedrals
    cases d with
    | none =>
      by_cases hc : cfg.dihedral = true
      · simp only [optEntries, List.nil_append, hc, if_true]
        rw [readOpt_foreign _ _ _ fun e he => (hrest e he).2]
        simp
      · simp [optEntries, hc]
    | some t =>
      have hc := hcd rfl
      have hn := hd rfl
      simp [optEntries, hc, readOpt, readInt, check, hn]
  have h1 : readAngles cfg nAtom (optEntries "hasAngles" "angleType" a
      ++ (optEntries "hasDihedrals" "dihedralType" d ++ rest)) =
      ok ((if a.isSome then 1 else 0, if a.isSome then nAtom - 2 else 0, a.getD (-1)),
        optEntries "hasDihedrals" "dihedralType" d ++ rest) := by
    unfold readAngles
    cases a with
    | none =>
      by_cases hc : cfg.angle = true
      · simp only [optEntries, List.nil_append, hc, if_true]
        rw [readOpt_foreign]
        · simp
        · cases d with
          | none => simpa [optEntries] using fun a b he => (hrest (a, b) he).1
          | some t => simp [optEntries]
      · simp [optEntries, hc]
    | some t =>
      have hc := hca rfl
      have hn := ha rfl
      simp [optEntries, hc, readOpt, readInt, check, hn]
  unfold readTail
  rw [List.append_assoc, h1, ok_bind]
  simp only []
  rw [h2, ok_bind]
  rfl

/-- Parameter file block of a homopolymer. -/
def homoFile (cap nAtom ta tb : ℤ) (a d : Option ℤ) : PFile :=
  [("moleculeCapacity", [cap]), ("nAtom", [nAtom]), ("atomType", [ta]), ("bondType", [tb])]
  ++ optEntries "hasAngles" "angleType" a ++ optEntries "hasDihedrals" "dihedralType" d

/-- **Every admissible homopolymer can be built**: for every length of at least
two (three with angles, four with dihedrals), reading the file succeeds. -/
theorem C32_homopolymer_exists (cfg : Cfg) (cap nAtom ta tb : ℤ) (a d : Option ℤ) (rest : PFile)
    (hrest : Foreign rest) (hca : a.isSome → cfg.angle = true)
    (hcd : d.isSome → cfg.dihedral = true) (hn : 2 ≤ nAtom) (ha : a.isSome → 3 ≤ nAtom)
    (hd : d.isSome → 4 ≤ nAtom) (hta : 0 ≤ ta) :
    ∃ s, readHomo cfg (homoFile cap nAtom ta tb a d ++ rest) =
      ok (⟨cap, nAtom, ta, tb, tailOf nAtom a d, s⟩, rest) := by
  obtain ⟨s, hs, hl⟩ := buildTail_ok hn (fun _ => ok ta) (fun _ => ta) (fun _ _ => rfl) tb
    (tailOf_ok ha hd)
  obtain ⟨m, rfl⟩ := Int.eq_ofNat_of_zero_le (show 0 ≤ nAtom by omega)
  have hv := hl.valid false (Or.inr fun _ _ => hta)
  refine ⟨s, ?_⟩
  simp only [readHomo, homoFile, List.cons_append, List.nil_append, readInt, check_true, ok_bind]
  rw [readTail_entries cfg m a d rest hrest hca hcd ha hd, ok_bind]
  simp only []
  rw [hs, ok_bind, hv, ok_bind]

/-- A chain of five atoms with angles and dihedrals. -/
example : ∃ s, readHomo ⟨true, true⟩ (homoFile 10 5 1 0 (some 2) (some 3)) =
    ok (⟨10, 5, 1, 0, ⟨1, 3, 2, 1, 2, 3⟩, s⟩, []) := by
  obtain ⟨s, hs⟩ := C32_homopolymer_exists ⟨true, true⟩ 10 5 1 0 (some 2) (some 3) []
    (by simp [Foreign]) (by simp) (by simp) (by norm_num) (by simp) (by simp) (by norm_num)
  exact ⟨s, by rw [List.append_nil] at hs; exact hs⟩

/-! ### Blocks -/

/-- The sequence of atom types of a block copolymer. -/
def blockTypes : List ℤ → List ℤ → List ℤ
  | l :: ls, t :: ts => List.replicate l.toNat t ++ blockTypes ls ts
  | _, _ => []

/-- **Diblocks.** -/
theorem C32_diblock {cfg : Cfg} {f g : PFile} {h : Diblock}
    (hr : readDiblock cfg f = ok (h, g)) :
    1 ≤ h.len0 ∧ 1 ≤ h.len1 ∧
      h.sp.types = blockTypes [h.len0, h.len1] [h.type0, h.type1] ∧
      LinearOK (h.len0 + h.len1) (fun i => if (i : ℤ) < h.len0 then h.type0 else h.type1)
        h.bondType (h.tail.hasA ≠ 0) h.tail.tA (h.tail.hasD ≠ 0) h.tail.tD h.sp := by
  unfold readDiblock at hr
  obtain ⟨⟨cap, f1⟩, -, hr⟩ := bind_eq_ok.mp hr
  obtain ⟨⟨l, f2⟩, -, hr⟩ := bind_eq_ok.mp hr
  obtain ⟨_, hl0, hr⟩ := bind_eq_ok.mp hr
  obtain ⟨_, hl1, hr⟩ := bind_eq_ok.mp hr
  obtain ⟨⟨a, f3⟩, -, hr⟩ := bind_eq_ok.mp hr
  obtain ⟨⟨tb, f4⟩, -, hr⟩ := bind_eq_ok.mp hr
  obtain ⟨⟨t, f5⟩, ht, hr⟩ := bind_eq_ok.mp hr
  obtain ⟨s, hs, hr⟩ := bind_eq_ok.mp hr
  obtain ⟨_, hv, hr⟩ := bind_eq_ok.mp hr
  simp only [Out.ok.injEq, Prod.mk.injEq] at hr hs hv
  obtain ⟨rfl, -⟩ := hr
  simp only [check_eq_ok] at hl0 hl1
  obtain ⟨h2, hl⟩ := buildTail_sound
    (ty := fun i => if (i : ℤ) < l.1 then a.1 else a.2) (fun _ _ => rfl) (readTail_spec ht).1 hs
  refine ⟨hl0, hl1, ?_, hl⟩
  rw [hl.types]
  have e : (l.1 + l.2).toNat = l.1.toNat + l.2.toNat := by omega
  rw [e, List.range_add, List.map_append]
  simp only [blockTypes, List.append_nil]
  congr 1
  · rw [List.eq_replicate_iff]
    refine ⟨by simp, fun b hb => ?_⟩
    obtain ⟨i, hi, rfl⟩ := List.mem_map.mp hb
    have := List.mem_range.mp hi
    rw [if_pos (by omega)]
  · rw [List.eq_replicate_iff]
    refine ⟨by simp, fun b hb => ?_⟩
    obtain ⟨i, hi, rfl⟩ := List.mem_map.mp hb
    obtain ⟨j, -, rfl⟩ := List.mem_map.mp hi
    rw [if_neg (by push_cast; omega)]

theorem sumLens_cons (l : ℤ) (ls : List ℤ) : sumLens (l :: ls) = l + sumLens ls := by
  have h : ∀ (c : ℤ) (ls : List ℤ), ls.foldl (· + ·) c = c + ls.foldl (· + ·) 0 := by
    intro c ls
    induction ls generalizing c with
    | nil => simp
    | cons x ls ih => rw [List.foldl_cons, List.foldl_cons, ih (c + x), ih (0 + x)]; ring
  unfold sumLens
  rw [List.foldl_cons, h]; ring

theorem sumLens_nonneg {ls : List ℤ} (h : ∀ l ∈ ls, 1 ≤ l) : (ls.length : ℤ) ≤ sumLens ls := by
  induction ls with
  | nil => simp [sumLens]
  | cons l ls ih =>
    rw [sumLens_cons]
    have := ih fun x hx => h x (by simp [hx])
    have := h l (by simp)
    simp only [List.length_cons]; push_cast; omega

theorem blockTypes_length {ls ts : List ℤ} (h : ∀ l ∈ ls, 1 ≤ l) (hlen : ts.length = ls.length) :
    ((blockTypes ls ts).length : ℤ) = sumLens ls := by
  induction ls generalizing ts with
  | nil => cases ts <;> simp [blockTypes, sumLens]
  | cons l ls ih =>
    cases ts with
    | nil => simp at hlen
    | cons t ts =>
      have := ih (ts := ts) (fun x hx => h x (by simp [hx])) (by simpa using hlen)
      have := h l (by simp)
      simp only [blockTypes, List.length_append, List.length_replicate, sumLens_cons]
      push_cast; omega

/-- The search of the block by its first atom finds the type given by the
sequence of blocks. -/
theorem multiLoop_eq (ls ts : List ℤ) (h : ∀ l ∈ ls, 1 ≤ l) (hlen : ts.length = ls.length)
    (start : ℤ) (i : ℕ) (hi : (i : ℤ) < sumLens ls) (d : ℤ) :
    multiLoop (start + i) d (blockBegins start ls) ts = (blockTypes ls ts).getD i d := by
  induction ls generalizing ts start i d with
  | nil => simp [sumLens] at hi; omega
  | cons l ls ih =>
    cases ts with
    | nil => simp at hlen
    | cons t ts =>
      have h1 := h l (by simp)
      have hls : ∀ x ∈ ls, 1 ≤ x := fun x hx => h x (by simp [hx])
      have hlen' : ts.length = ls.length := by simpa using hlen
      simp only [blockBegins, multiLoop, blockTypes]
      rw [if_pos (by omega)]
      by_cases hlt : (i : ℤ) < l
      · rw [List.getD_append _ _ _ _ (by simp; omega)]
        have : (List.replicate l.toNat t).getD i d = t := by
          rw [List.getD_eq_getElem _ _ (by simp; omega)]; simp
        rw [this]
        cases ls with
        | nil => simp [blockBegins, multiLoop]
        | cons l' ls =>
          cases ts with
          | nil => simp at hlen'
          | cons t' ts =>
            simp only [blockBegins, multiLoop]
            rw [if_neg (by omega)]
      · obtain ⟨j, rfl⟩ : ∃ j : ℕ, i = l.toNat + j := ⟨i - l.toNat, by omega⟩
        have hl : ((l.toNat : ℕ) : ℤ) = l := by omega
        rw [sumLens_cons] at hi
        have hj : (j : ℤ) < sumLens ls := by push_cast at hi; omega
        have e : start + ((l.toNat + j : ℕ) : ℤ) = (start + l) + j := by push_cast; omega
        rw [e, ih ts hls hlen' (start + l) j hj t, List.getD_append_right _ _ _ _ (by simp)]
        simp only [List.length_replicate, Nat.add_sub_cancel_left]
        have hlt : j < (blockTypes ls ts).length := by
          have := blockTypes_length hls hlen'; omega
        rw [List.getD_eq_getElem _ _ hlt, List.getD_eq_getElem _ _ hlt]

theorem blockTypes_nonneg {ls ts : List ℤ} (h : ∀ t ∈ ts, 0 ≤ t) : ∀ t ∈ blockTypes ls ts, 0 ≤ t := by
  induction ls generalizing ts with
  | nil => simp [blockTypes]
  | cons l ls ih =>
    cases ts with
    | nil => simp [blockTypes]
    | cons t ts =>
      intro x hx
      rw [blockTypes, List.mem_append] at hx
      rcases hx with hx | hx
      · rw [List.eq_of_mem_replicate hx]; exact h t (by simp)
      · exact ih (fun y hy => h y (by simp [hy])) x hx

theorem multiType_ok {ls ts : List ℤ} (h : ∀ l ∈ ls, 1 ≤ l) (hlen : ts.length = ls.length)
    (ht : ∀ t ∈ ts, 0 ≤ t) (i : ℕ) (hi : (i : ℤ) < sumLens ls) :
    multiType (blockBegins 0 ls) ts i = ok ((blockTypes ls ts).getD i (-1)) := by
  have e := multiLoop_eq ls ts h hlen 0 i hi (-1)
  rw [zero_add] at e
  unfold multiType
  simp only [e]
  rw [require_true, ok_bind]
  have hlt : i < (blockTypes ls ts).length := by
    have := blockTypes_length h hlen; omega
  rw [List.getD_eq_getElem _ _ hlt]
  exact blockTypes_nonneg ht _ (List.getElem_mem hlt)

theorem readArr_length {label : String} {n : ℤ} {f g : PFile} {v : List ℤ}
    (h : readArr label n f = ok (v, g)) : (v.length : ℤ) = n := by
  cases f with
  | nil => cases h
  | cons e f =>
    obtain ⟨l, vs⟩ := e
    unfold readArr at h
    obtain ⟨_, h1, h2⟩ := bind_eq_ok.mp h
    simp only [Out.ok.injEq, Prod.mk.injEq] at h2
    obtain ⟨rfl, -⟩ := h2
    exact (check_eq_ok.mp h1).2

/-- **Multiblocks.** The atom types follow the sequence of blocks. -/
theorem C32_multiblock {cfg : Cfg} {f g : PFile} {h : Multi} (hr : readMulti cfg f = ok (h, g)) :
    h.sp.types = blockTypes h.lens h.types ∧ (h.lens.length : ℤ) = h.nBlock ∧
      LinearOK (sumLens h.lens) (fun i => (blockTypes h.lens h.types).getD i (-1)) h.bondType
        (h.tail.hasA ≠ 0) h.tail.tA (h.tail.hasD ≠ 0) h.tail.tD h.sp := by
  unfold readMulti at hr
  obtain ⟨⟨cap, f1⟩, -, hr⟩ := bind_eq_ok.mp hr
  obtain ⟨⟨n, f2⟩, -, hr⟩ := bind_eq_ok.mp hr
  obtain ⟨_, hn, hr⟩ := bind_eq_ok.mp hr
  obtain ⟨⟨ls, f3⟩, hls, hr⟩ := bind_eq_ok.mp hr
  obtain ⟨_, hl1, hr⟩ := bind_eq_ok.mp hr
  obtain ⟨⟨ts, f4⟩, hts, hr⟩ := bind_eq_ok.mp hr
  obtain ⟨_, ht1, hr⟩ := bind_eq_ok.mp hr
  obtain ⟨⟨tb, f4⟩, -, hr⟩ := bind_eq_ok.mp hr
  obtain ⟨⟨t, f5⟩, ht, hr⟩ := bind_eq_ok.mp hr
  obtain ⟨s, hs, hr⟩ := bind_eq_ok.mp hr
  obtain ⟨_, hv, hr⟩ := bind_eq_ok.mp hr
  simp only [Out.ok.injEq, Prod.mk.injEq] at hr hs hv
  obtain ⟨rfl, -⟩ := hr
  simp only [check_eq_ok] at hl1 ht1
  have e1 := readArr_length hls
  have e2 := readArr_length hts
  have hlen : ts.length = ls.length := by omega
  obtain ⟨h2, hl⟩ := buildTail_sound (ty := fun i => (blockTypes ls ts).getD i (-1))
    (fun i hi => multiType_ok hl1 hlen ht1 i hi) (readTail_spec ht).1 hs
  refine ⟨?_, e1, hl⟩
  rw [hl.types]
  have e3 := blockTypes_length hl1 hlen
  apply List.ext_getElem
  · simp; omega
  · intro i h3 h4
    simp only [List.getElem_map, List.getElem_range]
    rw [List.getD_eq_getElem _ _ h4]

/-- Parameter file block of a multiblock. -/
def multiFile (cap tb : ℤ) (ls ts : List ℤ) (a d : Option ℤ) : PFile :=
  [("moleculeCapacity", [cap]), ("nBlock", [(ls.length : ℤ)]), ("blockLengths", ls),
   ("atomTypes", ts), ("bondType", [tb])]
  ++ optEntries "hasAngles" "angleType" a ++ optEntries "hasDihedrals" "dihedralType" d

/-- **Every admissible multiblock can be built.** -/
theorem C32_multiblock_exists (cfg : Cfg) (cap tb : ℤ) (ls ts : List ℤ) (a d : Option ℤ)
    (rest : PFile) (hrest : Foreign rest) (hca : a.isSome → cfg.angle = true)
    (hcd : d.isSome → cfg.dihedral = true) (hls : ∀ l ∈ ls, 1 ≤ l) (hts : ∀ t ∈ ts, 0 ≤ t)
    (hlen : ts.length = ls.length) (hn : 2 ≤ sumLens ls) (ha : a.isSome → 3 ≤ sumLens ls)
    (hd : d.isSome → 4 ≤ sumLens ls) :
    ∃ s, readMulti cfg (multiFile cap tb ls ts a d ++ rest) =
      ok (⟨cap, ls.length, ls, ts, blockBegins 0 ls, tb, tailOf (sumLens ls) a d, s⟩, rest) := by
  obtain ⟨s, hs, hl⟩ := buildTail_ok hn (multiType (blockBegins 0 ls) ts)
    (fun i => (blockTypes ls ts).getD i (-1))
    (fun i hi => multiType_ok hls hlen hts i hi) tb (tailOf_ok ha hd)
  obtain ⟨m, hm⟩ := Int.eq_ofNat_of_zero_le (show 0 ≤ sumLens ls by omega)
  have hv : isValid false s = ok () := by
    rw [hm] at hl
    refine hl.valid false (Or.inr fun i hi => ?_)
    have hlt : i < (blockTypes ls ts).length := by
      have := blockTypes_length hls hlen; omega
    rw [List.getD_eq_getElem _ _ hlt]
    exact blockTypes_nonneg hts _ (List.getElem_mem hlt)
  have hpos : (0 : ℤ) < ls.length := by
    cases ls with
    | nil => simp [sumLens] at hn
    | cons => simp
  refine ⟨s, ?_⟩
  simp only [readMulti, multiFile, List.cons_append, List.nil_append, readInt, readArr,
    check_true, ok_bind, hpos, and_self, hlen]
  rw [check_true hls, ok_bind, check_true hts, ok_bind,
    readTail_entries cfg _ a d rest hrest hca hcd ha hd, ok_bind]
  simp only []
  rw [hs, ok_bind, hv, ok_bind]

/-- Three blocks of lengths 2, 1, 3. -/
example : blockTypes [2, 1, 3] [0, 1, 0] = [0, 0, 1, 0, 0, 0] := by decide

example : ∃ s, readMulti ⟨true, false⟩ (multiFile 4 0 [2, 1, 3] [0, 1, 0] (some 5) none) =
    ok (⟨4, 3, [2, 1, 3], [0, 1, 0], [0, 2, 3], 0, ⟨1, 4, 5, 0, 0, -1⟩, s⟩, []) := by
  obtain ⟨s, hs⟩ := C32_multiblock_exists ⟨true, false⟩ 4 0 [2, 1, 3] [0, 1, 0] (some 5) none []
    (by simp [Foreign]) (by simp) (by simp) (by simp) (by simp) rfl (by decide) (by simp; decide)
    (by simp)
  exact ⟨s, by rw [List.append_nil] at hs; exact hs⟩

/-! ### The mutable homopolymer -/

/-- **Mutable homopolymers cannot have angles when dihedrals are compiled
in**: with both features, no parameter file that requests angles is
accepted, whatever its other contents. -/
theorem C32_homopolymerSG_no_angles (cfg : Cfg) (hca : cfg.angle = true)
    (hcd : cfg.dihedral = true) (cap nAtom tb x : ℤ) (hx : x ≠ 0) (rest : PFile) :
    ∀ r, readHomoSG cfg (("moleculeCapacity", [cap]) :: ("nAtom", [nAtom]) ::
      ("bondType", [tb]) :: ("hasAngles", [x]) :: rest) ≠ ok r := by
  rintro ⟨h, g⟩ hr
  simp only [readHomoSG, readInt, check_true, ok_bind] at hr
  obtain ⟨⟨t, f5⟩, ht, hr⟩ := bind_eq_ok.mp hr
  obtain ⟨s, hs, hr⟩ := bind_eq_ok.mp hr
  obtain ⟨_, hv, hr⟩ := bind_eq_ok.mp hr
  simp only [] at hs hv
  have hn := buildTail_two_le hs
  -- the tail
  have key : t.hasA = 0 ∧ t.nA = nAtom - 2 ∧ 3 ≤ nAtom := by
    unfold readTailSG at ht
    obtain ⟨⟨a, f1⟩, ha, ht⟩ := bind_eq_ok.mp ht
    have ha1 : a.1 ≠ 0 := by
      simp only [readAngles, hca, if_true, readOpt, ok_bind, hx, ne_eq, not_false_iff] at ha
      obtain ⟨_, -, ha⟩ := bind_eq_ok.mp ha
      obtain ⟨_, -, ha⟩ := bind_eq_ok.mp ha
      simp only [Out.ok.injEq, Prod.mk.injEq] at ha
      rw [← ha.1]; exact hx
    have hspec := (readAngles_spec ha).1 ha1
    simp only [hcd, if_true] at ht
    obtain ⟨⟨y, f2⟩, -, ht⟩ := bind_eq_ok.mp ht
    simp only [] at ht
    by_cases hy : y ≠ 0
    · rw [if_pos hy] at ht
      obtain ⟨_, -, ht⟩ := bind_eq_ok.mp ht
      obtain ⟨_, -, ht⟩ := bind_eq_ok.mp ht
      simp only [Out.ok.injEq, Prod.mk.injEq] at ht
      rw [← ht.1]; exact ⟨rfl, hspec.2.2, hspec.2.1⟩
    · rw [if_neg hy] at ht
      simp only [Out.ok.injEq, Prod.mk.injEq] at ht
      rw [← ht.1]; exact ⟨rfl, hspec.2.2, hspec.2.1⟩
  obtain ⟨h0, hA, h3⟩ := key
  -- the angles of the structure are left undefined
  have hang : s.nAtom = nAtom ∧ allocPart 3 nAtom t.nA = ok s.angles := by
    unfold buildTail buildLinear at hs
    simp only [bind_eq_ok, makeIf, h0, ne_eq, not_true_eq_false, if_false] at hs
    obtain ⟨_, -, _, -, _, -, _, -, _, -, _, -, pa, hpa, _, -, _, -, _, -, pa', hpa', _, -, hs⟩ := hs
    cases hs
    cases hpa'
    exact ⟨rfl, hpa⟩
  obtain ⟨m, rfl⟩ := Int.eq_ofNat_of_zero_le (show 0 ≤ nAtom by omega)
  have hval : partValid 3 m s.angles = ok () := by
    unfold isValid at hv
    obtain ⟨_, -, hv⟩ := bind_eq_ok.mp hv
    obtain ⟨_, -, hv⟩ := bind_eq_ok.mp hv
    obtain ⟨_, -, hv⟩ := bind_eq_ok.mp hv
    obtain ⟨_, hv, -⟩ := bind_eq_ok.mp hv
    rw [hang.1] at hv; exact hv
  have e : t.nA = ((m - 2 : ℕ) : ℤ) := by omega
  have hp := hang.2
  rw [e, allocPart_ok 3 m (m - 2) (by omega)] at hp
  have hp' : s.angles = ⟨((m - 2 : ℕ) : ℤ), List.replicate (m - 2) (nullGrp 3), fun _ => []⟩ := by
    rw [Out.ok.injEq] at hp; exact hp.symm
  rw [hp'] at hval
  have hOK := (partValid_iff 3 m _ (by simp only []; omega) (by
    intro g hg; rw [List.eq_of_mem_replicate hg]; rfl)).mp hval
  have := hOK.range (nullGrp 3) (by
    exact List.mem_replicate.mpr ⟨by omega, rfl⟩) (-1) (by simp [nullGrp])
  omega

/-- A parameter file requesting angles of a chain of four atoms. -/
example : ∀ r, readHomoSG ⟨true, true⟩ [("moleculeCapacity", [10]), ("nAtom", [4]),
    ("bondType", [0]), ("hasAngles", [1]), ("angleType", [0])] ≠ ok r :=
  C32_homopolymerSG_no_angles ⟨true, true⟩ rfl rfl 10 4 0 1 (by norm_num) _

/-- **Dihedrals of mutable homopolymers have no type**: when dihedrals are
requested, every dihedral of the structure has the invalid type -1. -/
theorem C32_homopolymerSG_dihedral_type {cfg : Cfg} {f g : PFile} {h : HomoSG}
    (hr : readHomoSG cfg f = ok (h, g)) (hd : h.tail.hasD ≠ 0) :
    ∀ i : ℕ, (i : ℤ) < h.nAtom - 3 →
      h.sp.dihedrals.grps[i]? = some ⟨[(i : ℤ), i + 1, i + 2, i + 3], -1⟩ := by
  unfold readHomoSG at hr
  obtain ⟨⟨cap, f1⟩, -, hr⟩ := bind_eq_ok.mp hr
  obtain ⟨⟨n, f2⟩, -, hr⟩ := bind_eq_ok.mp hr
  obtain ⟨⟨tb, f4⟩, -, hr⟩ := bind_eq_ok.mp hr
  obtain ⟨⟨t, f5⟩, ht, hr⟩ := bind_eq_ok.mp hr
  obtain ⟨s, hs, hr⟩ := bind_eq_ok.mp hr
  obtain ⟨_, hv, hr⟩ := bind_eq_ok.mp hr
  simp only [Out.ok.injEq, Prod.mk.injEq] at hr hs hv
  obtain ⟨rfl, -⟩ := hr
  simp only [] at hd ⊢ hs
  have key : t.tD = -1 ∧ t.nD = n - 3 ∧ 4 ≤ n := by
    unfold readTailSG at ht
    obtain ⟨⟨a, f1⟩, ha, ht⟩ := bind_eq_ok.mp ht
    by_cases hcd : cfg.dihedral = true
    · simp only [hcd, if_true] at ht
      obtain ⟨⟨y, f2⟩, -, ht⟩ := bind_eq_ok.mp ht
      simp only [] at ht
      by_cases hy : y ≠ 0
      · rw [if_pos hy] at ht
        obtain ⟨_, h4, ht⟩ := bind_eq_ok.mp ht
        obtain ⟨_, -, ht⟩ := bind_eq_ok.mp ht
        simp only [Out.ok.injEq, Prod.mk.injEq] at ht
        rw [← ht.1]; exact ⟨rfl, rfl, check_eq_ok.mp h4⟩
      · rw [if_neg hy] at ht
        simp only [Out.ok.injEq, Prod.mk.injEq] at ht
        rw [← ht.1] at hd; exact absurd hd hy
    · simp only [hcd, Bool.false_eq_true, if_false] at ht
      simp only [Out.ok.injEq, Prod.mk.injEq] at ht
      rw [← ht.1] at hd; exact absurd rfl hd
  obtain ⟨h1, hD, h4⟩ := key
  obtain ⟨m, rfl⟩ := Int.eq_ofNat_of_zero_le (show 0 ≤ n by omega)
  unfold buildTail buildLinear at hs
  simp only [bind_eq_ok] at hs
  obtain ⟨_, -, _, -, _, -, _, -, _, -, _, -, _, -, pd, hpd, _, -, _, -, _, -, pd', hpd', hs⟩ := hs
  cases hs
  have e : t.nD = ((m - 3 : ℕ) : ℤ) := by omega
  rw [e, allocPart_ok 4 m (m - 3) (by omega)] at hpd
  cases hpd
  rw [makeIf, if_pos hd, h1] at hpd'
  have hb := buildPart 4 maxDihedral m (m - 3) linFs4 (-1) rfl (by decide)
    (by simp only [linFs4, List.mem_cons, List.not_mem_nil, or_false]
        rintro f (rfl | rfl | rfl | rfl) i _ j _ h <;> simp only [] at h <;> omega)
    (by simp only [linFs4, List.mem_cons, List.not_mem_nil, or_false]
        rintro f (rfl | rfl | rfl | rfl) i _ <;> simp only [] <;> omega)
  simp only [linFs4, List.map_cons, List.map_nil] at hb
  rw [hb] at hpd'
  cases hpd'
  intro i hi
  have : i < m - 3 := by omega
  simp [this]

end Verif.Species
