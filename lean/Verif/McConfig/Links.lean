/-
The LINKS section of configuration files.
-/
import Verif.McConfig.Lemmas

set_option autoImplicit false

namespace Verif.McConfig

open Verif.Cpp
open Verif.Cpp.Out
open Verif.McLink (LM addLink Reg nLink atomLinkCapacity)

variable {B : Type}

/-- Atoms of the simulation: the index of an atom determines its molecule and
its place in the molecule, and is below `acap`. -/
structure Sim.AtomsOK (w : Sim) (acap : ℕ) : Prop where
  owner : ∀ k < w.nSp, ∀ i < w.cap k, ∀ a < w.nAtom k, w.owner (w.atomId k i a) = (k, i, a)
  bound : ∀ k < w.nSp, ∀ i < w.cap k, ∀ a < w.nAtom k, w.atomId k i a < acap

/-- Atom `x` belongs to a molecule of system `S`. -/
def InSys (w : Sim) (S : ℕ) (s : St B) (x : ℕ) : Prop :=
  ∃ k < w.nSp, ∃ i ∈ s.ids S k, ∃ a < w.nAtom k, x = w.atomId k i a

/-- An atom as an observer of system `S` sees it: species, index of the molecule
in the system, index in the molecule. -/
def place (w : Sim) (S : ℕ) (s : St B) (x : ℕ) : ℕ × Option ℕ × ℕ :=
  ((w.owner x).1, McPool.moleculeId s.pool S (w.owner x).1 (w.owner x).2.1, (w.owner x).2.2)

/-- The links of system `S` in order: places of the two atoms, and type. -/
def linkList (w : Sim) (S : ℕ) (s : St B) :
    List (Option (ℕ × Option ℕ × ℕ) × Option (ℕ × Option ℕ × ℕ) × ℤ) :=
  s.lm.set.elems.map fun i => ((s.lm.link i).a0.map (place w S s),
    (s.lm.link i).a1.map (place w S s), (s.lm.link i).typeId)

theorem addLink_elems {strict : Bool} {a b : ℕ} {t : ℤ} {p p' : LM}
    (h : addLink strict a b t p = ok p') : ∃ i, p'.set.elems = p.set.elems ++ [i] := by
  unfold addLink at h
  obtain ⟨-, -, h⟩ := bind_eq_ok.mp h
  obtain ⟨-, -, h⟩ := bind_eq_ok.mp h
  obtain ⟨⟨i, l⟩, -, h⟩ := bind_eq_ok.mp h
  simp only [McLink.initLink] at h
  obtain ⟨s, hs, h⟩ := bind_eq_ok.mp h
  unfold McPool.ASet.append at hs
  obtain ⟨-, -, hs⟩ := bind_eq_ok.mp hs
  obtain ⟨-, -, hs⟩ := bind_eq_ok.mp hs
  obtain ⟨-, -, hs⟩ := bind_eq_ok.mp hs
  simp only [ok.injEq] at hs
  have att : ∀ {i a : ℕ} {p p' : LM}, McLink.attach strict i a p = ok p' → p'.set = p.set := by
    intro i a p p' h
    unfold McLink.attach at h
    obtain ⟨-, -, h⟩ := bind_eq_ok.mp h
    obtain ⟨-, -, h⟩ := bind_eq_ok.mp h
    obtain ⟨-, -, h⟩ := bind_eq_ok.mp h
    simp only [ok.injEq] at h
    rw [← h]
  obtain ⟨p3, h3, h⟩ := bind_eq_ok.mp h
  rw [att h, att h3]
  exact ⟨i, by rw [← hs]⟩

section
variable {w : Sim} {acap : ℕ} (hw : w.AtomsOK acap) {S0 S : ℕ} {src t : St B}
  (hps : PoolOK w src.pool) (hpt : PoolOK w t.pool)
  (hlen : ∀ k < w.nSp, (t.ids S k).length = (src.ids S0 k).length)

/-- The atom of the new system at the place of atom `x` of the old one. -/
def image (w : Sim) (S0 S : ℕ) (src t : St B) (x : ℕ) : ℕ :=
  w.atomId (w.owner x).1 ((t.ids S (w.owner x).1).getD
    (((src.pool.set S0 (w.owner x).1).tags (w.owner x).2.1).getD 0) 0) (w.owner x).2.2

include hw hps in
theorem inSys_spec {x : ℕ} (hx : InSys w S0 src x) : ∃ k < w.nSp, ∃ i < w.cap k, ∃ a < w.nAtom k,
    ∃ j < (src.ids S0 k).length, x = w.atomId k i a ∧ w.owner x = (k, i, a) ∧
      (src.pool.set S0 k).tags i = some j ∧ (src.ids S0 k)[j]? = some i := by
  obtain ⟨k, hk, i, hi, a, ha, rfl⟩ := hx
  obtain ⟨j, hj, rfl⟩ := List.getElem_of_mem hi
  have hc := hps.ids_lt hk hi
  have ho := hw.owner k hk _ hc a ha
  obtain ⟨pl, hI⟩ := hps
  exact ⟨k, hk, _, hc, a, ha, j, hj, rfl, ho,
    ((hI.good S0 k hk).tag _ j).mpr (List.getElem?_eq_getElem hj), List.getElem?_eq_getElem hj⟩

include hw hps hpt hlen in
theorem image_spec {x : ℕ} (hx : InSys w S0 src x) :
    image w S0 S src t x < acap ∧ place w S t (image w S0 S src t x) = place w S0 src x ∧
    (∀ ws, rdEnd w S t (wrEnd w S0 src x ++ ws) = ok (image w S0 S src t x, ws)) ∧
    InSys w S t (image w S0 S src t x) := by
  obtain ⟨k, hk, i, hi, a, ha, j, hj, rfl, ho, htag, hget⟩ := inSys_spec hw hps hx
  have hj' : j < (t.ids S k).length := by rw [hlen k hk]; exact hj
  have e : image w S0 S src t (w.atomId k i a) = w.atomId k (t.ids S k)[j] a := by
    simp only [image, ho, htag, Option.getD_some]
    rw [List.getD_eq_getElem _ _ hj']
  have hmem : (t.ids S k)[j] ∈ t.ids S k := List.getElem_mem hj'
  have hc := hpt.ids_lt hk hmem
  have ho' := hw.owner k hk _ hc a ha
  rw [e]
  refine ⟨hw.bound k hk _ hc a ha, ?_, ?_, k, hk, _, hmem, a, ha, rfl⟩
  · obtain ⟨pl, hI⟩ := hpt
    have ht2 : (t.pool.set S k).tags (t.ids S k)[j] = some j :=
      ((hI.good S k hk).tag _ j).mpr (List.getElem?_eq_getElem hj')
    simp only [place, ho, ho', McPool.moleculeId, htag, ht2]
  · intro ws
    simp only [rdEnd, wrEnd, ho, htag, idNum, List.cons_append, List.nil_append, rdInt, ok_bind]
    rw [check_true ⟨by omega, by exact_mod_cast hk⟩, ok_bind]
    rw [Int.toNat_natCast, Int.toNat_natCast, Int.toNat_natCast]
    rw [check_true ⟨by omega, by exact_mod_cast hj'⟩, ok_bind]
    rw [check_true ⟨by omega, by exact_mod_cast ha⟩, ok_bind]
    rw [List.getD_eq_getElem _ _ hj']

include hw hps hpt hlen in
theorem image_inj {x y : ℕ} (hx : InSys w S0 src x) (hy : InSys w S0 src y)
    (h : image w S0 S src t x = image w S0 S src t y) : x = y := by
  have h1 := (image_spec hw hps hpt hlen hx).2.1
  have h2 := (image_spec hw hps hpt hlen hy).2.1
  rw [h, h2] at h1
  obtain ⟨k, hk, i, hi, a, ha, j, hj, rfl, ho, htag, hget⟩ := inSys_spec hw hps hx
  obtain ⟨k', hk', i', hi', a', ha', j', hj', rfl, ho', htag', hget'⟩ := inSys_spec hw hps hy
  simp only [place, ho, ho', McPool.moleculeId, htag, Prod.mk.injEq] at h1
  obtain ⟨rfl, h3, rfl⟩ := h1
  rw [htag'] at h3
  obtain rfl : j' = j := by simpa using h3
  rw [hget] at hget'
  obtain rfl : i = i' := by simpa using hget'
  rfl

/-- What a link of the source is, given the registry of its links. -/
theorem linkList_eq {lcap : ℕ} {s : St B} {reg : Reg} (hI : McLink.Inv lcap acap s.lm reg)
    {X Y : ℕ → ℕ} {Z : ℕ → ℤ} (S : ℕ)
    (h : ∀ j (hj : j < s.lm.set.elems.length), reg s.lm.set.elems[j] = some (X j, Y j, Z j)) :
    linkList w S s = (List.range s.lm.set.elems.length).map fun j =>
      (some (place w S s (X j)), some (place w S s (Y j)), Z j) := by
  refine List.ext_getElem (by simp [linkList]) fun j h1 h2 => ?_
  have hj : j < s.lm.set.elems.length := by simpa [linkList] using h1
  simp only [linkList, List.getElem_map, List.getElem_range, hI.lnk, h j hj,
    McLink.LinkRec.ofEntry, Option.map_some]

theorem wrLinks_eq {lcap : ℕ} {s : St B} {reg : Reg} (hI : McLink.Inv lcap acap s.lm reg)
    (hu : w.useLinks = true) {X Y : ℕ → ℕ} {Z : ℕ → ℤ} (S : ℕ)
    (h : ∀ j (hj : j < s.lm.set.elems.length), reg s.lm.set.elems[j] = some (X j, Y j, Z j)) :
    wrLinks w S s = ok ([.lab "LINKS", .lab "nLink", .int (nLink s.lm)] ++
      (List.range (nLink s.lm)).flatMap fun j =>
        wrEnd w S s (X j) ++ wrEnd w S s (Y j) ++ [.int (Z j)]) := by
  unfold wrLinks
  rw [if_pos hu]
  have key : ∀ (l : List ℕ) (d : List (ℕ × ℕ × ℤ)), l.map reg = d.map some → ∀ ts : List Tok,
      loop (fun ts i => do
        let l ← wrLink w S s i
        ok (ts ++ l)) l ts =
      ok (ts ++ d.flatMap fun e => wrEnd w S s e.1 ++ wrEnd w S s e.2.1 ++ [.int e.2.2]) := by
    intro l
    induction l with
    | nil =>
      intro d hd ts
      cases d with
      | nil => simp
      | cons e d => simp at hd
    | cons i l ih =>
      intro d hd ts
      cases d with
      | nil => simp at hd
      | cons e d =>
        obtain ⟨x, y, z⟩ := e
        simp only [List.map_cons, List.cons.injEq] at hd
        have hw1 : wrLink w S s i = ok (wrEnd w S s x ++ wrEnd w S s y ++ [.int z]) := by
          simp only [wrLink, hI.lnk, hd.1, McLink.LinkRec.ofEntry, McLink.deref, ok_bind]
        rw [loop_cons, hw1, ok_bind, ok_bind, ih d hd.2]
        simp
  rw [key _ ((List.range (nLink s.lm)).map fun j => (X j, Y j, Z j))]
  · rw [List.flatMap_map]
  · refine List.ext_getElem (by simp [McLink.nLink]) fun j h1 h2 => ?_
    have hj : j < s.lm.set.elems.length := by simpa using h1
    simp only [List.getElem_map, List.getElem_range, h j hj]

theorem link_entries {lcap : ℕ} {s : St B} {reg : Reg} (hI : McLink.Inv lcap acap s.lm reg) :
    ∃ (X Y : ℕ → ℕ) (Z : ℕ → ℤ), ∀ j (hj : j < s.lm.set.elems.length),
      reg s.lm.set.elems[j] = some (X j, Y j, Z j) := by
  have hex : ∀ j, ∃ e : ℕ × ℕ × ℤ, ∀ hj : j < s.lm.set.elems.length,
      reg s.lm.set.elems[j] = some e := by
    intro j
    by_cases hj : j < s.lm.set.elems.length
    · obtain ⟨e, he⟩ := Option.ne_none_iff_exists'.mp ((hI.mem _).mp (List.getElem_mem hj))
      exact ⟨e, fun _ => he⟩
    · exact ⟨(0, 0, 0), fun h => absurd h hj⟩
  choose E hE using hex
  exact ⟨fun j => (E j).1, fun j => (E j).2.1, fun j => (E j).2.2, hE⟩

theorem wrLinks_ok {lcap : ℕ} {s : St B} {reg : Reg} (hI : McLink.Inv lcap acap s.lm reg) (S : ℕ) :
    ∃ ls, wrLinks w S s = ok ls := by
  cases hu : w.useLinks with
  | false => exact ⟨[], by simp [wrLinks, hu]⟩
  | true =>
    obtain ⟨X, Y, Z, h⟩ := link_entries hI
    exact ⟨_, wrLinks_eq hI hu S h⟩

include hw hps hpt hlen in
/-- An atom gets no more links than it had. -/
theorem degree_lt {lcap lcap' : ℕ} {reg reg' : Reg} {p : LM}
    (hIs : McLink.Inv lcap acap src.lm reg) (hI : McLink.Inv lcap' acap p reg')
    (hdeg : ∀ x, (src.lm.ofAtom x).length ≤ atomLinkCapacity)
    {X Y : ℕ → ℕ} {Z : ℕ → ℤ}
    (h : ∀ j (hj : j < src.lm.set.elems.length),
      reg src.lm.set.elems[j] = some (X j, Y j, Z j))
    (hX : ∀ j < nLink src.lm, InSys w S0 src (X j)) (hY : ∀ j < nLink src.lm, InSys w S0 src (Y j))
    {j : ℕ} (hj : j < nLink src.lm) (hlj : p.set.elems.length = j)
    (hreg : ∀ i (hi : i < p.set.elems.length), reg' p.set.elems[i] =
      some (image w S0 S src t (X i), image w S0 S src t (Y i), Z i))
    {x : ℕ} (hx : x = X j ∨ x = Y j) :
    (p.ofAtom (image w S0 S src t x)).length < atomLinkCapacity := by
  classical
  have hxs : InSys w S0 src x := by rcases hx with rfl | rfl; exacts [hX j hj, hY j hj]
  set T := (List.range j).filter fun i => X i = x ∨ Y i = x with hT
  have h1 : (p.ofAtom (image w S0 S src t x)).length ≤ T.length := by
    have hsub : p.ofAtom (image w S0 S src t x) ⊆ T.map fun i => p.set.elems.getD i 0 := by
      intro i hi
      obtain ⟨b, z, hbz⟩ := (hI.atoms i _).mp hi
      have hmem : i ∈ p.set.elems := (hI.mem i).mpr (by rcases hbz with h | h <;> rw [h] <;> simp)
      obtain ⟨n, hn, rfl⟩ := List.getElem_of_mem hmem
      rw [hreg n hn] at hbz
      refine List.mem_map.mpr ⟨n, ?_, List.getD_eq_getElem _ _ hn⟩
      rw [hT, List.mem_filter]
      have hnj : n < nLink src.lm := by omega
      refine ⟨List.mem_range.mpr (by omega), ?_⟩
      rw [decide_eq_true_eq]
      rcases hbz with hb | hb
      · left
        refine image_inj hw hps hpt hlen (hX n hnj) hxs ?_
        simp only [Option.some.injEq, Prod.mk.injEq] at hb; exact hb.1
      · right
        refine image_inj hw hps hpt hlen (hY n hnj) hxs ?_
        simp only [Option.some.injEq, Prod.mk.injEq] at hb; exact hb.2.1
    simpa using ((hI.nodup _).subperm hsub).length_le
  have h2 : T.length + 1 ≤ (src.lm.ofAtom x).length := by
    have hnd : ((T ++ [j]).map fun i => src.lm.set.elems.getD i 0).Nodup := by
      refine List.Nodup.map_on ?_ ?_
      · intro a ha b hb hab
        have lt : ∀ c ∈ T ++ [j], c < src.lm.set.elems.length := by
          intro c hc
          rcases List.mem_append.mp hc with hc | hc
          · have := List.mem_range.mp (List.mem_filter.mp hc).1
            exact lt_trans this hj
          · rw [List.mem_singleton] at hc; rw [hc]; exact hj
        rw [List.getD_eq_getElem _ _ (lt a ha), List.getD_eq_getElem _ _ (lt b hb)] at hab
        exact (List.Nodup.getElem_inj_iff hIs.good.nodup).mp hab
      · rw [List.nodup_append]
        refine ⟨List.nodup_range.filter _, List.nodup_singleton _, ?_⟩
        intro a ha b hb hab
        rw [List.mem_singleton] at hb
        have := List.mem_range.mp (List.mem_filter.mp ha).1
        omega
    have hsub : ((T ++ [j]).map fun i => src.lm.set.elems.getD i 0) ⊆ src.lm.ofAtom x := by
      intro i hi
      obtain ⟨n, hn, rfl⟩ := List.mem_map.mp hi
      have hn2 : n < src.lm.set.elems.length ∧ (X n = x ∨ Y n = x) := by
        rcases List.mem_append.mp hn with hn | hn
        · have := List.mem_filter.mp hn
          refine ⟨lt_trans (List.mem_range.mp this.1) hj, ?_⟩
          simpa using this.2
        · rw [List.mem_singleton] at hn; rw [hn]
          exact ⟨hj, by rcases hx with h | h; exacts [.inl h.symm, .inr h.symm]⟩
      rw [List.getD_eq_getElem _ _ hn2.1, hIs.atoms, Reg.touches, h n hn2.1]
      rcases hn2.2 with h | h
      · exact ⟨Y n, Z n, .inl (by rw [h])⟩
      · exact ⟨X n, Z n, .inr (by rw [h])⟩
    simpa using (hnd.subperm hsub).length_le
  have := hdeg x
  omega

include hw hps hpt hlen in
/-- Reading the links written for another system with the same numbers of
molecules: the same links between the atoms at the same places. -/
theorem rdLinks_ok {lcap lcap' : ℕ} {reg : Reg} (hu : w.useLinks = true)
    (hIs : McLink.Inv lcap acap src.lm reg)
    (hI : McLink.Inv lcap' acap t.lm fun _ => none)
    (hcap : nLink src.lm ≤ lcap')
    (hdeg : ∀ x, (src.lm.ofAtom x).length ≤ atomLinkCapacity)
    (hend : ∀ i a b z, reg i = some (a, b, z) → InSys w S0 src a ∧ InSys w S0 src b)
    (rest : List Tok) :
    ∃ ls t', wrLinks w S0 src = ok ls ∧ rdLinks w S t (ls ++ rest) = ok (t', rest) ∧
      t' = { t with lm := t'.lm } ∧ linkList w S t' = linkList w S0 src ∧
      (∃ reg', McLink.Inv lcap' acap t'.lm reg') := by
  obtain ⟨X, Y, Z, h⟩ := link_entries hIs
  have hXs : ∀ j < nLink src.lm, InSys w S0 src (X j) := fun j hj => (hend _ _ _ _ (h j hj)).1
  have hYs : ∀ j < nLink src.lm, InSys w S0 src (Y j) := fun j hj => (hend _ _ _ _ (h j hj)).2
  have hwr := wrLinks_eq hIs hu S0 h
  have himg := fun {x} hx => image_spec (x := x) hw hps hpt hlen hx
  have hset0 : t.lm.set.elems = [] := by
    rw [List.eq_nil_iff_forall_not_mem]
    intro i hi
    exact (hI.mem i).mp hi rfl
  obtain ⟨x, ex, hs2, hP⟩ := loop_range_ok
    (P := fun j (x : St B × List Tok) =>
      x.2 = left (fun j => wrEnd w S0 src (X j) ++ wrEnd w S0 src (Y j) ++ [.int (Z j)])
        (nLink src.lm) rest j ∧ x.1 = { t with lm := x.1.lm } ∧
      ∃ reg', McLink.Inv lcap' acap x.1.lm reg' ∧ x.1.lm.set.elems.length = j ∧
        ∀ i (hi : i < x.1.lm.set.elems.length), reg' x.1.lm.set.elems[i] =
          some (image w S0 S src t (X i), image w S0 S src t (Y i), Z i))
    (rdLink w S) (nLink src.lm)
    (t, left (fun j => wrEnd w S0 src (X j) ++ wrEnd w S0 src (Y j) ++ [.int (Z j)])
        (nLink src.lm) rest 0)
    ⟨rfl, rfl, fun _ => none, hI, by rw [hset0]; rfl,
      fun i hi => absurd hi (by rw [hset0]; exact Nat.not_lt_zero i)⟩ (by
    rintro j hj ⟨u, ws⟩ ⟨rfl, hu1, reg', hu2, hu3, hu4⟩
    dsimp only at hu1 hu2 hu3 hu4
    have hr : ∀ ws, rdEnd w S u ws = rdEnd w S t ws := by rw [hu1]; exact fun _ => rfl
    unfold rdLink
    simp only []
    rw [left_succ _ _ hj]
    simp only [hr, List.append_assoc, (himg (hXs j hj)).2.2.1, (himg (hYs j hj)).2.2.1, ok_bind,
      List.cons_append, List.nil_append, rdInt]
    have hne : image w S0 S src t (X j) ≠ image w S0 S src t (Y j) := by
      intro hc
      have := image_inj hw hps hpt hlen (hXs j hj) (hYs j hj) hc
      exact (hIs.ends _ _ _ _ (h j hj)).2.2.2 this
    rcases hu2.add (strict := w.strict) (Z j) hne with ⟨hno, -⟩ | ⟨-, p', i, ea, hri, hla, -, hI'⟩
    · exfalso
      apply hno
      refine ⟨(himg (hXs j hj)).1, (himg (hYs j hj)).1, ?_, ?_, ?_⟩
      · unfold McLink.nLink at hj hcap ⊢; omega
      · exact degree_lt hw hps hpt hlen hIs hu2 hdeg h hXs hYs hj hu3 hu4 (.inl rfl)
      · exact degree_lt hw hps hpt hlen hIs hu2 hdeg h hXs hYs hj hu3 hu4 (.inr rfl)
    · rw [ea, ok_bind]
      obtain ⟨i', hel⟩ := addLink_elems ea
      have hii : i' = i := by
        have := (hI'.linkAt_some hla).1
        rw [hel] at this
        simpa [McLink.nLink] using this
      subst hii
      refine ⟨_, rfl, rfl, ?_, _, hI', ?_, ?_⟩
      · rw [hu1]
      · simp only [hel, List.length_append, hu3, List.length_singleton]
      · intro n hn
        simp only [hel] at hn ⊢
        rw [List.length_append, List.length_singleton] at hn
        by_cases hnl : n < u.lm.set.elems.length
        · rw [List.getElem_append_left hnl, McLink.put_ne]
          · exact hu4 n hnl
          · intro hc
            have := hu4 n hnl
            simp only [hc, hri] at this
            cases this
        · have : n = u.lm.set.elems.length := by omega
          subst this
          rw [List.getElem_concat_length (by rfl), McLink.put_self]
          rw [hu3])
  obtain ⟨hx1, reg', hI', hlen', hreg'⟩ := hP
  refine ⟨_, x.1, hwr, ?_, hx1, ?_, reg', hI'⟩
  · unfold rdLinks
    rw [if_pos hu]
    simp only [List.cons_append, List.nil_append, optLab, if_true, rdCount_wr, ok_bind,
      Int.toNat_natCast]
    rw [left_zero] at ex
    rw [ex, ← left_end (fun j => wrEnd w S0 src (X j) ++ wrEnd w S0 src (Y j) ++ [.int (Z j)])
        (nLink src.lm) rest, ← hs2]
  · rw [linkList_eq hIs S0 h, linkList_eq hI' S hreg', hlen']
    refine List.map_congr_left fun j hj => ?_
    have hj := List.mem_range.mp hj
    have hpl : ∀ y, place w S x.1 y = place w S t y := by rw [hx1]; exact fun _ => rfl
    rw [hpl, hpl, (himg (hXs j hj)).2.1, (himg (hYs j hj)).2.1]

end

end Verif.McConfig
