import Verif.Lemmas.PartitionScfSample
import Verif.Props.C41_C42

/-! # C49: frozen fragments; C50: isolated fragments -/

namespace Verif
open Spec Part PartScf
variable {K : Type} [Field K] [LinearOrder K] [IsStrictOrderedRing K] [FloorRing K]
variable {G : Grid K} {r c p : ℕ}

theorem scf_holds {T : ℕ → Env G r c p} {W : ℕ → KsScf.Workers G r c p} {o : Options K} {P P' : Part G r c p}
    {log : List (Fl K)} {w : ℕ} (h : scf T W o P = .ok (P', log, w)) :
    ∃ P₀, start (W 0) o P = .ok P₀ ∧ Holds P₀ P' := by
  obtain ⟨P₀, nf, st, h0, -, hrun, rfl⟩ := scf_inv h
  refine ⟨P₀, h0, ?_⟩
  exact PartScf.loop_inv (body T W o) (fun st => Holds P₀ st.P)
    (fun s s' d hs hb => hs.trans (body_holds hb)) _ _ _ _ _ _ _ _ (Holds.refl P₀) hrun

/-- C49, partial: however many passes `scf` makes, with `freeze_a` the external potential of every component
of fragment A is the one the loop started with (with `continuing` the one of the previous calculation,
otherwise zero); likewise fragment B with `freeze_b` if it is calculated at all (no `ab_sym`).
Missing: the density does change (`C49_refuted`). -/
theorem C49_frozen_partial (T : ℕ → Env G r c p) (W : ℕ → KsScf.Workers G r c p) (o : Options K)
    (P P' : Part G r c p) (log : List (Fl K)) (w : ℕ) (h : scf T W o P = .ok (P', log, w)) :
    (o.freezeA = true → List.Forall₂ (fun f g => g.ks.vext =
      if o.continuing then f.ks.vext else some fun _ _ => 0) P.compsA P'.compsA) ∧
    (o.freezeB = true → P.opt.abSym = false → List.Forall₂ (fun f g => g.ks.vext =
      if o.continuing then f.ks.vext else some fun _ _ => 0) P.compsB P'.compsB) := by
  obtain ⟨P₀, h0, hh⟩ := scf_holds h
  obtain ⟨hopt, hA, hB, hB'⟩ := start_inv h0
  constructor
  · intro hf
    exact forall₂_trans (fun x y z hx hy => by
      rw [hf] at hx
      exact (hy.2 hx.1).trans hx.2) hA hh.A
  · intro hf hs
    have hs0 : P₀.opt.abSym = false := by rw [hopt.1]; exact hs
    have key : List.Forall₂ (fun f g => g.ks.vext = f.ks.vext) P₀.compsB P'.compsB := by
      have := hh.B' hs0
      rw [hf] at hB
      clear hB'
      generalize P₀.compsB = l at this hB
      generalize P'.compsB = m at this
      induction this with
      | nil => exact .nil
      | cons e _ ih =>
        exact .cons (e.2 (hB _ (List.mem_cons_self ..))) (ih fun g hg => hB g (List.mem_cons_of_mem _ hg))
    exact forall₂_trans (fun x y z hx hy => hy.trans hx) (hB' hs) key

/-- C49 is false for the density: a frozen fragment starts with its two electrons at the first point (the
result with no pass), after one pass they are at the second point. -/
theorem C49_refuted : ∃ (s : Options ℚ) (o : PartOpt) (P P' : Part Sample.G 1 1 1) (l l' : List (Fl ℚ)) (w w' : ℕ)
    (n n' : Sample.G.Cols 1),
    s.freezeA = true ∧ Sample.run { s with maxIter := 0 } o = .ok (P, l, w) ∧ P.fa.ks.n = some n ∧
    Sample.run { s with maxIter := 1 } o = .ok (P', l', w') ∧ P'.fa.ks.n = some n' ∧
    n 0 0 = 2 ∧ n' 0 0 = 0 := by
  let s : Options ℚ := { etol := 0, alpha := [1], freezeA := true }
  obtain ⟨P, l, w, h1, h2⟩ := Sample.run_ok { s with maxIter := 0 } { kin := .none }
    (fun x => x.1.fa.ks.n.map fun n => n 0 0) (some 2) (by decide +kernel)
  obtain ⟨P', l', w', h3, h4⟩ := Sample.run_ok { s with maxIter := 1 } { kin := .none }
    (fun x => x.1.fa.ks.n.map fun n => n 0 0) (some 0) (by decide +kernel)
  obtain ⟨n, hn, h2⟩ := Option.map_eq_some_iff.mp h2
  obtain ⟨n', hn', h4⟩ := Option.map_eq_some_iff.mp h4
  exact ⟨s, { kin := .none }, P, P', l, l', w, w', n, n', rfl, h1, hn, h3, hn', h2, h4⟩

/-- A concrete case of C49: two passes. -/
example : (Sample.run { etol := 0, maxIter := 2, alpha := [1], freezeA := true } { kin := .none }).toOption.map
    (fun x => (x.1.fa.ks.vext.map fun v => v 0 0, x.2.1.length)) = some (some 0, 2) := by decide +kernel

/-! ## C50 -/

/-- C50, `energy()` alone, whatever the state: without partition terms. -/
theorem C50_energy (T : Env G r c p) (P P' : Part G r c p) (h : P.energy T = .ok P') (hi : P.opt.isolated = true) :
    ∃ (e : PartEnergy G p), P'.E = some e ∧ e.EpPot = 0 ∧ e.EpKin = .num (.fin 0) ∧ e.EpHxc = 0 ∧
      e.Ep = .num (.fin 0) ∧ e.E = .num (Fl.add e.Ef (.fin (P.Za * P.Zb / (2 * P.a)))) ∧
      P'.compsA = P.compsA ∧ P'.compsB = P.compsB ∧ P'.nf = P.nf := by
  obtain ⟨sa, sb, P₁, pot, hxc, kin, ep, ea, eb, -, h2, -, rfl⟩ := energy_inv h
  unfold partitionEnergy at h2
  rw [if_pos hi] at h2
  have h3 := Except.ok.inj h2
  simp only [Prod.mk.injEq] at h3
  obtain ⟨rfl, rfl, rfl, rfl, rfl⟩ := h3
  refine ⟨_, rfl, rfl, rfl, rfl, rfl, ?_, rfl, rfl, rfl⟩
  simp only [Tot.add]
  congr 2
  cases Fl.add sa.E sb.E <;> simp [Fl.add]

/-- All arrays of a component are zero: the partition potential, and the external potential if the component
is not frozen. -/
def Spec.NoPartition (frozen : Bool) (f : Frag G r c p) : Prop :=
  f.v.vp = some (fun _ _ => 0) ∧ (frozen = false → f.ks.vext = some fun _ _ => 0)

theorem zip_mirror {x y : List (Frag G r c p)} (hl : x.length = y.length) {z : List (Frag G r c p)}
    (h : List.Forall₂ (fun (x : Frag G r c p × Frag G r c p) y => mirrorOf x.1 x.2 = .ok y) (x.zip y) z) :
    ∀ g ∈ z, ∃ f ∈ x, ∃ f', mirrorOf f f' = .ok g := by
  induction x generalizing y z with
  | nil =>
    cases y with
    | nil => cases h; intro g hg; exact nomatch hg
    | cons => simp at hl
  | cons a x ih =>
    cases y with
    | nil => simp at hl
    | cons b y =>
      rw [List.zip_cons_cons] at h
      cases h with
      | cons e r' =>
        intro g hg
        rcases List.mem_cons.mp hg with rfl | hg
        · exact ⟨a, List.mem_cons_self .., b, e⟩
        · obtain ⟨f, hf, f', h'⟩ := ih (by simpa using hl) r' g hg
          exact ⟨f, List.mem_cons_of_mem _ hf, f', h'⟩

theorem pass_isolated {T : Env G r c p} {W : KsScf.Workers G r c p} {o : Options K} {dif : Fl K}
    {P P' : Part G r c p} (h : pass T W o dif P = .ok P') (hi : P.opt.isolated = true)
    (hA : ∀ f ∈ P.compsA, f.v.frozen = some o.freezeA) (hB : ∀ f ∈ P.compsB, f.v.frozen = some o.freezeB) :
    (∃ (e : PartEnergy G p), P'.E = some e ∧ e.EpPot = 0 ∧ e.EpKin = .num (.fin 0) ∧ e.EpHxc = 0 ∧
      e.Ep = .num (.fin 0) ∧ e.E = .num (Fl.add e.Ef (.fin (P.Za * P.Zb / (2 * P.a))))) ∧
    (∀ f ∈ P'.compsA, NoPartition o.freezeA f) ∧
    (∀ f ∈ P'.compsB, NoPartition (if P.opt.abSym then o.freezeA else o.freezeB) f) := by
  obtain ⟨P₁, P₂, P₃, P₄, P₅, P₆, vp, h1, h2, h3, h4, h5, h6, h7, o1, o2, o3, o4, o5, o6, o7⟩ := pass_inv h
  obtain ⟨e, he, e1, e2, e3, e4, e5, e6, e7, -⟩ := C50_energy T P₆ P' h7 (by rw [o6.1]; exact hi)
  refine ⟨⟨e, he, e1, e2, e3, e4, by rw [e5, o6.2.1, o6.2.2.1, o6.2.2.2]⟩, ?_⟩
  -- the flags before the potential
  have hup : ∀ x y : Frag G r c p, hxcUpdate T.toFunctionals x = .ok y → Hold x y := fun x y hxy => by
    obtain ⟨a1, a2⟩ := hxcUpdate_inv hxy
    exact ⟨by rw [a1], fun _ => a2.vext⟩
  have H12 := (onKSab_holds h1 hup).trans (mirrorIf_holds h2)
  have hA2 : ∀ f ∈ P₂.compsA, f.v.frozen = some o.freezeA := fun f hf => by
    obtain ⟨x, hx, e⟩ := mem_right H12.A hf
    exact e.1.trans (hA x hx)
  have hB2 : ∀ f ∈ P₂.compsB, f.v.frozen = some o.freezeB := fun f hf => by
    obtain ⟨x, hx, e⟩ := mem_right H12.B hf
    exact e.trans (hB x hx)
  unfold potential at h3
  rw [if_pos (by rw [o2.1]; exact hi)] at h3
  simp only [Py.do_eq_ok, Py.pure_eq_ok] at h3
  obtain ⟨nf, -, P₃', h3, heq⟩ := h3
  obtain ⟨rfl, hvp⟩ := Prod.mk.inj heq
  obtain ⟨-, p2, -, p4⟩ := onKSab_inv h3
  obtain ⟨-, q2, -, q4⟩ := onKSab_inv h4
  have hfrag : ∀ (b : Bool) (x : Frag G r c p) (f : Frag G r c p), x.v.vp = some (fun _ _ => 0) →
      x.v.frozen = some b → fragment T.toFunctionals W o dif vp x = .ok f → NoPartition b f := by
    intro b x f hx hb hf
    obtain ⟨a1, -, a3⟩ := fragment_inv hf
    refine ⟨by rw [a1]; exact hx, ?_⟩
    rintro rfl
    rw [a3 (by rw [hb]; simp)]
    cases o.calcType with
    | pdft => rw [← hvp]
    | sdft => exact hx
  have hA4 : ∀ f ∈ P₄.compsA, NoPartition o.freezeA f := by
    intro f hf
    obtain ⟨x, hx, hxf⟩ := mem_right q2 hf
    obtain ⟨y, hy, hyx⟩ := mem_right p2 hx
    obtain rfl := Except.ok.inj hyx
    refine hfrag _ _ f ?_ ?_ hxf
    · rfl
    · exact hA2 y hy
  obtain ⟨-, s2, s3, s4⟩ := mirrorIf_inv h5
  have hB5 : ∀ f ∈ P₅.compsB, NoPartition (if P.opt.abSym then o.freezeA else o.freezeB) f := by
    intro f hf
    cases hs : P.opt.abSym with
    | false =>
      have hs2 : P₂.opt.abSym = false := by rw [o2.1]; exact hs
      have hs3 : P₃'.opt.abSym = false := by rw [o3.1]; exact hs
      rw [s3 (by rw [o4.1]; exact hs)] at hf
      obtain ⟨x, hx, hxf⟩ := mem_right (q4 hs3) hf
      obtain ⟨y, hy, hyx⟩ := mem_right (p4 hs2) hx
      obtain rfl := Except.ok.inj hyx
      refine hfrag _ _ f ?_ ?_ hxf
      · rfl
      · exact hB2 y hy
    | true =>
      obtain ⟨x, hx, y, hxy⟩ := zip_mirror (comps_length P₄) (s4 (by rw [o4.1]; exact hs)) f hf
      obtain ⟨-, ⟨v, hv, hv'⟩, hvp'⟩ := mirrorOf_frozen hxy
      obtain ⟨n1, n2⟩ := hA4 x hx
      refine ⟨?_, fun hfr => ?_⟩
      · rw [hvp', n1]; rfl
      · have := n2 hfr
        rw [hv', Option.some.inj (hv.symm.trans this)]; rfl
  obtain ⟨-, -, -, -, -, t1, t2⟩ := promolecule_inv h6
  constructor
  · intro f hf
    rw [e6] at hf
    obtain ⟨x, hx, hxf⟩ := mem_right t1 hf
    rw [s2] at hx
    rw [hxf.1]; exact hA4 x hx
  · intro f hf
    rw [e7] at hf
    obtain ⟨x, hx, hxf⟩ := mem_right t2 hf
    rw [hxf.1]; exact hB5 x hx

/-- C50: an isolated calculation that makes at least one pass ends with zero partition potentials of all
components, which are the external potentials of those not frozen, with zero `Ep` and components and
with the total energy `Ef + Za Zb / (2a)`. -/
theorem C50_isolated (T : ℕ → Env G r c p) (W : ℕ → KsScf.Workers G r c p) (o : Options K)
    (P P' : Part G r c p) (log : List (Fl K)) (w : ℕ) (h : scf T W o P = .ok (P', log, w))
    (hi : P.opt.isolated = true) (hlog : log ≠ []) :
    (∃ (e : PartEnergy G p), P'.E = some e ∧ e.EpPot = 0 ∧ e.EpKin = .num (.fin 0) ∧ e.EpHxc = 0 ∧
      e.Ep = .num (.fin 0) ∧ e.E = .num (Fl.add e.Ef (.fin (P.Za * P.Zb / (2 * P.a))))) ∧
    (∀ f ∈ P'.compsA, NoPartition o.freezeA f) ∧
    (∀ f ∈ P'.compsB, NoPartition (if P.opt.abSym then o.freezeA else o.freezeB) f) := by
  obtain ⟨P₀, nf, st, h0, -, hrun, rfl⟩ := scf_inv h
  obtain ⟨hopt, hA, hB, -⟩ := start_inv h0
  obtain ⟨t, d, ht, hb⟩ := PartScf.loop_last (body T W o) (fun st => Holds P₀ st.P)
    (fun s s' d hs hb => hs.trans (body_holds hb)) _ _ _ _ _ _ _ _ (Holds.refl P₀) hrun hlog
  have hh := ht.trans (avoid_holds t.it t.P)
  obtain ⟨g1, g2, g3⟩ := pass_isolated (body_inv hb) (by rw [hh.opt.1, hopt.1]; exact hi)
    (fun f hf => by
      obtain ⟨x, hx, e⟩ := mem_right hh.A hf
      obtain ⟨y, hy, e'⟩ := mem_right hA hx
      exact e.1.trans e'.1)
    (fun f hf => by
      obtain ⟨x, hx, e⟩ := mem_right hh.B hf
      exact e.trans (hB x hx))
  obtain ⟨q1, q2, q3, q4⟩ := hopt.trans hh.opt
  rw [q2, q3, q4] at g1
  rw [q1] at g3
  exact ⟨g1, g2, g3⟩

/-- A concrete case of C50: two interacting fragments, two passes. -/
example : (Sample.run { etol := 0, maxIter := 2, alpha := [1] } { kin := .none, isolated := true }).toOption.map
    (fun x => (x.1.fa.ks.vext.map fun v => v 0 0, x.1.fb.v.vp.map fun v => v 0 1, x.2.1.length)) =
    some (some 0, some 0, 2) := by decide +kernel

end Verif
