import Verif.Boundary.Mono

/-!
# C47: setting, writing, reading and sending a boundary

Sources: `src/simp/boundary/OrthorhombicBoundary.{h,cpp}`,
`src/simp/boundary/MonoclinicBoundary.{h,cpp}`, `src/simp/boundary/OrthoRegion.h`,
`src/simp/crystal/LatticeSystem.cpp`.

Text streams are lists of tokens: words naming a lattice system and numbers
(printed and parsed exactly; white space and formatting are not modelled).
Binary archives are lists of stored values.
-/

namespace Verif.Boundary

/-! ## Model -/

/-- A token of a text stream. -/
inductive Tok where
  | lat (l : Lattice)
  | num (x : ℝ)

/-- `operator << (ostream&, Vector)`: three numbers. -/
def Tok.vec (v : Vec) : List Tok := [.num (v 0), .num (v 1), .num (v 2)]

/-- `operator << (ostream&, OrthorhombicBoundary)`
(OrthorhombicBoundary.cpp:187-203). -/
def Ortho.print (b : Ortho) : List Tok :=
  .lat b.lattice ::
    (if b.lattice = .orthorhombic then Tok.vec b.lengths
     else if b.lattice = .tetragonal then [.num (b.lengths 0), .num (b.lengths 2)]
     else if b.lattice = .cubic then [.num (b.lengths 0)]
     else [])

/-- `operator >> (istream&, OrthorhombicBoundary)`
(OrthorhombicBoundary.cpp:155-182): new value and unread tokens; `none` if an
exception is thrown or the stream ends early. -/
noncomputable def Ortho.parse (b : Ortho) : List Tok → Option (Ortho × List Tok)
  | .lat .orthorhombic :: .num x :: .num y :: .num z :: rest =>
    some (Ortho.reset { b with maxima := ![x, y, z], lattice := .orthorhombic }, rest)
  | .lat .tetragonal :: .num a :: .num bc :: rest =>
    some (Ortho.reset { b with maxima := ![a, bc, bc], lattice := .tetragonal }, rest)
  | .lat .cubic :: .num a :: rest =>
    some (Ortho.reset { b with maxima := ![a, a, a], lattice := .cubic }, rest)
  | _ => none

/-- `operator << (ostream&, MonoclinicBoundary)` (MonoclinicBoundary.cpp:177-184);
`lattice_` is set by the constructor and never changed. -/
def Mono.print (b : Mono) : List Tok := .lat .monoclinic :: (Tok.vec b.l ++ [.num b.d])

/-- `operator >> (istream&, MonoclinicBoundary)` (MonoclinicBoundary.cpp:161-172). -/
noncomputable def Mono.parse (b : Mono) : List Tok → Option (Mono × List Tok)
  | .lat .monoclinic :: .num x :: .num y :: .num z :: .num d :: rest =>
    some (Mono.reset { b with l := ![x, y, z], d := d }, rest)
  | _ => none

/-- A value in a binary archive. -/
inductive Item where
  | vec (v : Vec)
  | vecs (v : Fin 3 → Vec)
  | num (x : ℝ)
  | lat (l : Lattice)

/-- `OrthorhombicBoundary::serialize` to a saving archive
(OrthorhombicBoundary.h:641-654 and OrthoRegion.h:76-84). -/
def Ortho.save (b : Ortho) : List Item :=
  [.vec b.minima, .vec b.maxima, .vec b.lengths, .vec b.half, .num b.volume,
   .vecs b.bravais, .vecs b.reciprocal, .vec b.inv, .num b.minLength, .lat b.lattice]

/-- `OrthorhombicBoundary::isValid` (OrthorhombicBoundary.cpp:114-150) with
`OrthoRegion::isValid` (OrthoRegion.cpp:50-78); `feq` (equality up to rounding)
is equality. -/
def Ortho.Valid (b : Ortho) : Prop :=
  (∀ i, b.minima i < b.maxima i ∧ b.lengths i = b.maxima i - b.minima i ∧
    b.half i = 1 / 2 * b.lengths i) ∧
  b.volume = b.lengths 0 * b.lengths 1 * b.lengths 2 ∧
  (∀ i, b.minima i = 0 ∧ b.lengths i * b.inv i = 1 ∧ b.lengths i = b.bravais i i) ∧
  (∀ i j, b.bravais i 0 * b.reciprocal j 0 + b.bravais i 1 * b.reciprocal j 1
      + b.bravais i 2 * b.reciprocal j 2 = if i = j then 2 * Real.pi else 0) ∧
  (∀ i j, i ≠ j → b.bravais i j = 0 ∧ b.reciprocal i j = 0)

open Classical in
/-- `OrthorhombicBoundary::serialize` from a loading archive. -/
noncomputable def Ortho.load (_b : Ortho) : List Item → Option (Ortho × List Item)
  | .vec mi :: .vec ma :: .vec le :: .vec ha :: .num vo :: .vecs br :: .vecs re :: .vec iv ::
      .num ml :: .lat la :: rest =>
    let b' : Ortho := ⟨mi, ma, le, ha, vo, br, re, iv, ml, la⟩
    if b'.Valid then some (b', rest) else none
  | _ => none

/-- `MonoclinicBoundary::serialize`, saving (MonoclinicBoundary.h:728-738). -/
def Mono.save (b : Mono) : List Item := [.vec b.l, .num b.d]

/-- `MonoclinicBoundary::isValid` (MonoclinicBoundary.cpp:117-156). -/
def Mono.Valid (b : Mono) : Prop :=
  (∀ i, b.minima i < b.maxima i ∧ b.l i = b.maxima i - b.minima i ∧ b.half i = 1 / 2 * b.l i ∧
    b.minima i = 0 ∧ b.l i * b.inv i = 1) ∧
  (∀ i j, b.bravais i 0 * b.reciprocal j 0 + b.bravais i 1 * b.reciprocal j 1
      + b.bravais i 2 * b.reciprocal j 2 = if i = j then 2 * Real.pi else 0) ∧
  b.volume = b.l 0 * b.l 1 * b.l 2

open Classical in
/-- `MonoclinicBoundary::serialize`, loading (MonoclinicBoundary.h:728-738). -/
noncomputable def Mono.load (b : Mono) : List Item → Option (Mono × List Item)
  | .vec l :: .num d :: rest =>
    let b' := Mono.reset { b with l := l, d := d }
    if b'.Valid then some (b', rest) else none
  | _ => none

/-- `send` followed by `recv` into `dst`, or `bcast` as seen by a non-root
processor (OrthorhombicBoundary.cpp:210-240). -/
noncomputable def Ortho.transmit (src dst : Ortho) : Ortho := dst.setOrthorhombic src.lengths

/-- `send` followed by `recv` into `dst`, or `bcast`
(MonoclinicBoundary.cpp:193-229). -/
noncomputable def Mono.transmit (src dst : Mono) : Mono := dst.setMonoclinic src.l src.d

/-! ## Theorems -/

/-- A reachable boundary is determined by its lengths and lattice system. -/
theorem Ortho.OK.ext' {b c : Ortho} (hb : b.OK) (hc : c.OK) (hl : b.lengths = c.lengths)
    (hm : b.lattice = c.lattice) (hmin : b.minLength = c.minLength) : b = c := by
  have e1 : b.minima = c.minima := by funext i; rw [hb.minima, hc.minima]
  have e2 : b.maxima = c.maxima := by funext i; rw [hb.maxima, hc.maxima, hl]
  have e3 : b.half = c.half := by funext i; rw [hb.half, hc.half, hl]
  have e4 : b.inv = c.inv := by funext i; rw [hb.inv, hc.inv, hl]
  have e5 : b.volume = c.volume := by rw [hb.volume, hc.volume, hl]
  have e6 : b.bravais = c.bravais := by funext i j; rw [hb.bravais, hc.bravais, hl]
  have e7 : b.reciprocal = c.reciprocal := by funext i j; rw [hb.reciprocal, hc.reciprocal, hl]
  cases b; cases c
  simp_all

theorem Ortho.OK.min_unique {b c : Ortho} (hb : b.OK) (hc : c.OK) (hl : b.lengths = c.lengths) :
    b.minLength = c.minLength := by
  obtain ⟨i, hi⟩ := hb.minEq
  obtain ⟨j, hj⟩ := hc.minEq
  have h1 := hb.minLe j
  have h2 := hc.minLe i
  rw [hl] at hi h1
  linarith

/-- Shape of the cell implied by the recorded lattice system. -/
theorem Ortho.Reach.shape {b : Ortho} (h : b.Reach) :
    (b.lattice = .orthorhombic) ∨ (b.lattice = .tetragonal ∧ b.lengths 1 = b.lengths 2) ∨
    (b.lattice = .cubic ∧ b.lengths 0 = b.lengths 1 ∧ b.lengths 1 = b.lengths 2) := by
  cases h with
  | default => exact Or.inl rfl
  | ortho l hl _ => exact Or.inl rfl
  | @tetra b a bc ha hb h =>
    refine Or.inr (Or.inl ⟨rfl, ?_⟩)
    simp [Ortho.setTetragonal, Ortho.reset, h.ok.minima]
  | @cubic b a ha h =>
    refine Or.inr (Or.inr ⟨rfl, ?_, ?_⟩) <;> simp [Ortho.setCubic, Ortho.reset, h.ok.minima]

theorem Ortho.reset_lengths {b : Ortho} (hb : b.OK) (m : Vec) (lat : Lattice) :
    (Ortho.reset { b with maxima := m, lattice := lat }).lengths = m := by
  funext i
  simp [Ortho.reset, hb.minima]

/-- **C47 (setters).** Each setter of the orthorhombic boundary produces exactly
the requested edge lengths and lattice system, whatever the boundary was
before. -/
theorem C47_ortho_setters {b : Ortho} (hb : b.Reach) (l : Vec) (a bc : ℝ) :
    ((b.setOrthorhombic l).lengths = l ∧ (b.setOrthorhombic l).lattice = .orthorhombic) ∧
    ((b.setTetragonal a bc).lengths 0 = a ∧ (b.setTetragonal a bc).lengths 1 = bc ∧
      (b.setTetragonal a bc).lengths 2 = bc ∧ (b.setTetragonal a bc).lattice = .tetragonal) ∧
    ((∀ i, (b.setCubic a).lengths i = a) ∧ (b.setCubic a).lattice = .cubic) := by
  refine ⟨⟨Ortho.reset_lengths hb.ok l _, rfl⟩, ⟨?_, ?_, ?_, rfl⟩, ⟨?_, rfl⟩⟩
  · exact congrFun (Ortho.reset_lengths hb.ok ![a, bc, bc] _) 0
  · exact congrFun (Ortho.reset_lengths hb.ok ![a, bc, bc] _) 1
  · exact congrFun (Ortho.reset_lengths hb.ok ![a, bc, bc] _) 2
  · intro i
    have := congrFun (Ortho.reset_lengths hb.ok ![a, a, a] .cubic) i
    rw [Ortho.setCubic, this]
    fin_cases i <;> rfl

/-- **C47 (text, orthorhombic family).** Writing any reachable boundary and
reading it into any reachable boundary yields exactly the original (all derived
members included) and leaves the rest of the stream unread. -/
theorem C47_ortho_text {b c : Ortho} (hb : b.Reach) (hc : c.Reach) (rest : List Tok) :
    c.parse (b.print ++ rest) = some (b, rest) := by
  have key : ∀ m lat, m = b.lengths → lat = b.lattice →
      Ortho.reset { c with maxima := m, lattice := lat } = b := by
    rintro m lat rfl rfl
    have ok := Ortho.reset_ok hc.ok b.lengths hb.ok.pos b.lattice
    have hl := Ortho.reset_lengths hc.ok b.lengths b.lattice
    exact ok.ext' hb.ok hl rfl (ok.min_unique hb.ok hl)
  rcases hb.shape with h | ⟨h, h12⟩ | ⟨h, h01, h12⟩
  · simp only [Ortho.print, h, if_true, Tok.vec, List.cons_append, List.nil_append, Ortho.parse]
    rw [key _ _ ?_ h.symm]
    funext i; fin_cases i <;> rfl
  · simp only [Ortho.print, h, if_true, List.cons_append, List.nil_append, reduceCtorEq, if_false,
      Ortho.parse]
    rw [key _ _ ?_ h.symm]
    funext i; fin_cases i
    · rfl
    · exact h12.symm
    · rfl
  · simp only [Ortho.print, h, if_true, List.cons_append, List.nil_append, reduceCtorEq, if_false,
      Ortho.parse]
    rw [key _ _ ?_ h.symm]
    funext i; fin_cases i
    · rfl
    · exact h01
    · exact h01.trans h12

/-- **C47 (archive, orthorhombic family).** Loading what was saved yields exactly
the original boundary, passes the validity check and consumes exactly what was
written. -/
theorem C47_ortho_archive {b : Ortho} (hb : b.Reach) (c : Ortho) (rest : List Item) :
    c.load (b.save ++ rest) = some (b, rest) := by
  have hv : b.Valid := by
    have ok := hb.ok
    refine ⟨fun i => ⟨?_, ?_, ?_⟩, ok.volume, fun i => ⟨ok.minima i, ?_, ?_⟩, ?_, ?_⟩
    · rw [ok.minima, ok.maxima]; exact ok.pos i
    · rw [ok.minima, ok.maxima]; ring
    · rw [ok.half]; ring
    · rw [ok.inv]; exact mul_inv_cancel₀ (ok.pos i).ne'
    · rw [ok.bravais]; simp
    · intro i j
      have h0 := (ok.pos 0).ne'
      have h1 := (ok.pos 1).ne'
      have h2 := (ok.pos 2).ne'
      simp only [ok.bravais, ok.reciprocal]
      fin_cases i <;> fin_cases j <;> simp <;> field_simp
    · intro i j hij
      rw [ok.bravais, ok.reciprocal, if_neg hij.symm, if_neg hij.symm]
      exact ⟨rfl, rfl⟩
  simp only [Ortho.save, List.cons_append, List.nil_append, Ortho.load]
  rw [if_pos hv]

/-- **C47 (MPI, orthorhombic family).** Sending, or broadcasting, a boundary
reproduces every geometrical member; the lattice system recorded on the
receiving side is always orthorhombic. -/
theorem C47_ortho_mpi {b c : Ortho} (hb : b.Reach) (hc : c.Reach) :
    b.transmit c = { b with lattice := .orthorhombic } := by
  have ok := Ortho.reset_ok hc.ok b.lengths hb.ok.pos .orthorhombic
  have hl := Ortho.reset_lengths hc.ok b.lengths .orthorhombic
  have ok2 : Ortho.OK { b with lattice := .orthorhombic } := by
    have o := hb.ok
    exact ⟨o.pos, o.minima, o.maxima, o.half, o.inv, o.volume, o.bravais, o.reciprocal, o.minLe,
      o.minEq⟩
  exact ok.ext' ok2 hl rfl (ok.min_unique ok2 hl)

/-- **C47 is violated for the lattice system over MPI**: a cubic boundary arrives
as an orthorhombic one. -/
theorem C47_mpi_loses_lattice :
    ∃ b c : Ortho, b.Reach ∧ c.Reach ∧ (b.transmit c).lattice ≠ b.lattice := by
  refine ⟨Ortho.default.setCubic 2, Ortho.default, .cubic 2 (by norm_num) .default, .default, ?_⟩
  simp [Ortho.transmit, Ortho.setOrthorhombic, Ortho.reset, Ortho.setCubic]

/-! ### Monoclinic -/

theorem Mono.Reach.min {b : Mono} (h : b.Reach) : b.minLength = minOf b.lengths ∧
    b.e = Real.sqrt (b.l 1 * b.l 1 + b.d * b.d) := by
  cases h with
  | default => simp [Mono.default, minOf]
  | mono l d hl _ => exact ⟨rfl, rfl⟩
  | ortho l hl _ => exact ⟨rfl, rfl⟩

theorem Mono.Reach.ext' {b c : Mono} (rb : b.Reach) (rc : c.Reach) (hl : b.l = c.l)
    (hd : b.d = c.d) : b = c := by
  have hb := rb.ok
  have hc := rc.ok
  have e1 : b.minima = c.minima := by funext i; rw [hb.minima, hc.minima]
  have e2 : b.maxima = c.maxima := by funext i; rw [hb.maxima, hc.maxima, hl]
  have e3 : b.half = c.half := by funext i; rw [hb.half, hc.half, hl]
  have e4 : b.inv = c.inv := by funext i; rw [hb.inv, hc.inv, hl]
  have e5 : b.volume = c.volume := by rw [hb.volume, hc.volume, hl]
  have e6 : b.bravais = c.bravais := by rw [hb.bravais, hc.bravais, hl, hd]
  have e7 : b.reciprocal = c.reciprocal := by rw [hb.reciprocal, hc.reciprocal, hl, hd]
  have e8 : b.c3 = c.c3 := by rw [hb.c3, hc.c3, hl, hd]
  have e9 : b.lengths = c.lengths := by rw [hb.lengths, hc.lengths, hl, e8]
  have e10 : b.minLength = c.minLength := by rw [rb.min.1, rc.min.1, e9]
  have e11 : b.e = c.e := by rw [rb.min.2, rc.min.2, hl, hd]
  cases b; cases c
  simp_all

theorem Mono.transmit_eq {b c : Mono} (hb : b.Reach) (hc : c.Reach) :
    c.setMonoclinic b.l b.d = b :=
  Mono.Reach.ext' (.mono b.l b.d hb.ok.pos hc) hb rfl rfl

/-- **C47 (text, monoclinic).** -/
theorem C47_mono_text {b c : Mono} (hb : b.Reach) (hc : c.Reach) (rest : List Tok) :
    c.parse (b.print ++ rest) = some (b, rest) := by
  simp only [Mono.print, Tok.vec, List.cons_append, List.nil_append, Mono.parse]
  have : (![b.l 0, b.l 1, b.l 2] : Vec) = b.l := by funext i; fin_cases i <;> rfl
  rw [this]
  have := Mono.transmit_eq hb hc
  unfold Mono.setMonoclinic at this
  rw [this]

/-- **C47 (archive, monoclinic).** -/
theorem C47_mono_archive {b c : Mono} (hb : b.Reach) (hc : c.Reach) (rest : List Item) :
    c.load (b.save ++ rest) = some (b, rest) := by
  have hv : b.Valid := by
    have ok := hb.ok
    have h0 := (ok.pos 0).ne'
    have h1 := (ok.pos 1).ne'
    have h2 := (ok.pos 2).ne'
    refine ⟨fun i => ⟨?_, ?_, ?_, ok.minima i, ?_⟩, ?_, ok.volume⟩
    · rw [ok.minima, ok.maxima]; exact ok.pos i
    · rw [ok.minima, ok.maxima]; ring
    · rw [ok.half]; ring
    · rw [ok.inv]; exact mul_inv_cancel₀ (ok.pos i).ne'
    · intro i j
      rw [ok.bravais, ok.reciprocal]
      fin_cases i <;> fin_cases j <;> simp <;> field_simp
      ring
  have := Mono.transmit_eq hb hc
  unfold Mono.setMonoclinic at this
  simp only [Mono.save, List.cons_append, List.nil_append, Mono.load]
  rw [if_pos (by rw [this]; exact hv), this]

/-- **C47 (MPI, monoclinic).** The received boundary equals the one sent. -/
theorem C47_mono_mpi {b c : Mono} (hb : b.Reach) (hc : c.Reach) : b.transmit c = b :=
  Mono.transmit_eq hb hc

/-- Hypotheses are met by, for instance, a tetragonal boundary read into the
default one. -/
example : Ortho.default.parse ((Ortho.default.setTetragonal 2 3).print ++ [.num 7])
    = some (Ortho.default.setTetragonal 2 3, [.num 7]) :=
  C47_ortho_text (.tetra 2 3 (by norm_num) (by norm_num) .default) .default _

end Verif.Boundary
