import Verif.Standard.LemFun
import Verif.Standard.PropsE

/-!
C62: a density given by a function and break points.
-/

namespace Pacal.Standard
open MeasureTheory Real Filter Topology

/-- For strictly increasing break points, of which the first and the last may be infinite (the last not, if there are only
two), and representable poles, the function is stored in well-formed pieces: one between any two consecutive break points,
with exactly the poles asked for, each equal to `f`. -/
theorem C62_pieces {eps : ℝ} (he : 0 ≤ eps) (f : ℝ → ℝ) (bs : List Break) (h2 : 2 ≤ bs.length)
    (hs : bs.Pairwise fun p q => p.at_ < q.at_) (hc : bs.IsChain PolesOk) (hend : EndsOk bs) :
    ∃ r, ofFun eps f (bs.map Break.at_) (some (bs.map Break.lp)) (some (bs.map Break.rp)) = some r ∧
      PF.WF eps r ∧ Shape f bs r := by
  match bs, h2 with
  | p :: q :: l, _ =>
    obtain ⟨r, hr, hsh⟩ := pieces_shape f p q l hs hc hend
    obtain ⟨r', hr', hch⟩ := pieces_chain f p q l hs (hc.imp fun p q h => h.2.1) hend
    rw [hr] at hr'
    obtain rfl := Option.some.inj hr'
    refine ⟨r, ?_, hch.wf eps, hsh⟩
    rw [ofFun_eq _ _ _ _ _ hs, hr, Option.bind_some, hch.addAll he]

/-- If moreover `f` is measurable, nonnegative and integrable between the first and the last break point, the law is the
measure with density `f` there, and 0 elsewhere.  (Without the flags being representable a pole is lost or the constructor
fails, see below; the law only needs that the constructor succeeds.) -/
theorem C62_law {eps : ℝ} (he : 0 ≤ eps) (f : ℝ → ℝ) (bs : List Break) (h2 : 2 ≤ bs.length)
    (hs : bs.Pairwise fun p q => p.at_ < q.at_) (hc : bs.IsChain FlagsOk) (hend : EndsOk bs)
    (hm : Measurable f) (hnn : ∀ x, startOf bs ≤ .fin x → .fin x < lastOf bs → 0 ≤ f x)
    (hfin : ∫⁻ x in {x : ℝ | startOf bs ≤ .fin x ∧ .fin x < lastOf bs}, ENNReal.ofReal (f x) ≠ ⊤) :
    Rep eps (ofFun eps f (bs.map Break.at_) (some (bs.map Break.lp)) (some (bs.map Break.rp)))
      ((volume.restrict {x : ℝ | startOf bs ≤ .fin x ∧ .fin x < lastOf bs}).withDensity fun x => ENNReal.ofReal (f x)) := by
  match bs, h2 with
  | p :: q :: l, _ =>
    obtain ⟨r, hr, hch⟩ := pieces_chain f p q l hs hc hend
    rw [ofFun_eq _ _ _ _ _ hs, hr, Option.bind_some]
    have hlo : startOf (p :: q :: l) = p.at_ := rfl
    have hhi : lastOf (p :: q :: l) = endOf q.at_ l := rfl
    rw [hlo, hhi] at hnn hfin ⊢
    have hS := measurableSet_ext p.at_ (endOf q.at_ l)
    obtain ⟨g, hg⟩ : ∃ g, g = (ext p.at_ (endOf q.at_ l)).indicator f := ⟨_, rfl⟩
    have hgch : Chain g p.at_ (endOf q.at_ l) r := by
      refine hch.congr ?_
      intro x h1 h2
      rw [hg, Set.indicator_of_mem (show x ∈ ext p.at_ (endOf q.at_ l) from ⟨h1, h2⟩)]
    have hlaw : (volume.restrict (ext p.at_ (endOf q.at_ l))).withDensity (fun x => ENNReal.ofReal (f x)) =
        volume.withDensity fun x => ENNReal.ofReal (g x) := by
      rw [← withDensity_indicator hS]
      congr 1
      ext x
      rw [hg]
      by_cases h : x ∈ ext p.at_ (endOf q.at_ l)
      · rw [Set.indicator_of_mem h, Set.indicator_of_mem h]
      · rw [Set.indicator_of_notMem h, Set.indicator_of_notMem h, ENNReal.ofReal_zero]
    have hfm : IsFiniteMeasure (volume.withDensity fun x => ENNReal.ofReal (g x)) := by
      rw [← hlaw]
      exact isFiniteMeasure_withDensity hfin
    change Rep eps _ ((volume.restrict (ext p.at_ (endOf q.at_ l))).withDensity fun x => ENNReal.ofReal (f x))
    rw [hlaw]
    refine hgch.rep_density he (hg ▸ hm.indicator hS) ?_ ?_ hfm
    · intro x
      rw [hg]
      exact Set.indicator_nonneg (fun x hx => hnn x hx.1 hx.2) x
    · intro x hx
      rw [hg, Set.indicator_of_notMem hx]

example (f : ℝ → ℝ) : ∃ r, ofFun 1e-14 f [.ninf, .fin 0, .fin 1, .pinf] (some [false, true, false, false])
    (some [false, false, false, false]) = some r ∧ PF.WF 1e-14 r ∧ r.map leftPole = [false, true, false] := by
  obtain ⟨r, h1, h2, h3⟩ := C62_pieces (eps := 1e-14) (by norm_num) f exampleBreaks (by simp [exampleBreaks])
    (by
      have h01 : Ext.fin (0:ℝ) < Ext.fin 1 := Ext.fin_lt_fin.2 one_pos
      have h : Ext.ninf < (Ext.pinf : Ext ℝ) := (ninf_lt_fin 0).trans (fin_lt_pinf 0)
      simp [exampleBreaks, ninf_lt_fin, fin_lt_pinf, h01, h])
    (by simp [exampleBreaks, PolesOk, fin_ne_ninf, fin_ne_pinf]) trivial
  exact ⟨r, h1, h2, h3.left⟩

/-- When both poles are asked for on one piece, the left one is silently dropped. -/
theorem C62_violated_both_poles (eps : ℝ) (f : ℝ → ℝ) (a b : ℝ) (h : a < b) :
    ofFun eps f [.fin a, .fin b] (some [true, false]) (some [false, true]) = PF.addAll eps [] [.fin .right a b f] := by
  have h1 : Ext.fin a < Ext.fin b := Ext.fin_lt_fin.2 h
  have h2 : Ext.fin b ≤ Ext.fin b := le_refl _
  simp [ofFun, pieces, laterPieces, finPiece, h1, h2, fin_ne_ninf, fin_ne_pinf]

/-- Right poles at two consecutive break points make the constructor fail (the test looks at `rpoles[i]` instead of
`lpoles[i]`), although each of the two pieces has a single pole. -/
theorem C62_violated_right_poles (eps : ℝ) (f : ℝ → ℝ) :
    ofFun eps f [.fin 0, .fin 1, .fin 2] (some [false, false, false]) (some [false, true, true]) = none := by
  have h1 : Ext.fin (0:ℝ) < Ext.fin 1 := Ext.fin_lt_fin.2 (by norm_num)
  have h2 : Ext.fin (1:ℝ) ≤ Ext.fin 2 := Ext.fin_le_fin.2 (by norm_num)
  simp [ofFun, pieces, laterPieces, finPiece, h1, h2, fin_ne_ninf, fin_ne_pinf]

/-- A left pole at the start of the last, infinite piece is silently dropped. -/
theorem C62_violated_infinite_pole (eps : ℝ) (f : ℝ → ℝ) :
    ofFun eps f [.fin 0, .fin 1, .pinf] (some [false, true, false]) none =
      PF.addAll eps [] [.fin .none 0 1 f, .pinf 1 f] := by
  have h1 : Ext.fin (0:ℝ) < Ext.fin 1 := Ext.fin_lt_fin.2 (by norm_num)
  have h2 : Ext.fin (1:ℝ) ≤ Ext.pinf := (fin_lt_pinf 1).le
  simp [ofFun, pieces, laterPieces, finPiece, h1, h2, fin_ne_ninf, fin_ne_pinf]

/-- `FunDistr` passes its pole arguments on to a constructor which does not know them: giving any of them raises. -/
theorem C62_violated_funDistr_poles (eps : ℝ) (f : ℝ → ℝ) (bps : List (Ext ℝ)) (lp : List Bool) (rp : Option (List Bool)) :
    funDistr eps f bps (some lp) rp = none := rfl

/-- Without pole arguments `FunDistr` stores the pieces. -/
theorem C62_funDistr {eps : ℝ} (he : 0 ≤ eps) (f : ℝ → ℝ) (bps : List (Ext ℝ)) (h2 : 2 ≤ bps.length)
    (hs : bps.Pairwise (· < ·)) (hend : ∀ a, bps ≠ [a, .pinf]) :
    ∃ r, funDistr eps f bps none none = some r ∧ PF.WF eps r ∧
      Shape f (bps.map fun b => ⟨b, false, false⟩) r := by
  obtain ⟨bs, hbs⟩ : ∃ bs : List Break, bs = bps.map fun b => ⟨b, false, false⟩ := ⟨_, rfl⟩
  have h1 : bs.map Break.at_ = bps := by rw [hbs, List.map_map]; simp [Function.comp_def]
  have hend' : EndsOk bs := by
    match bps, hbs with
    | [a, b], hbs =>
      rw [hbs]
      intro h
      have h : b = Ext.pinf := h
      exact hend a (by rw [h])
    | [], hbs => rw [hbs]; trivial
    | [_], hbs => rw [hbs]; trivial
    | _ :: _ :: _ :: _, hbs => rw [hbs]; trivial
  obtain ⟨r, hr, hw, hsh⟩ := C62_pieces he f bs (by rw [hbs, List.length_map]; exact h2)
    (by rw [hbs, List.pairwise_map]; exact hs)
    (by
      rw [hbs, List.isChain_map]
      exact (List.Pairwise.isChain hs).imp fun a b _ => by simp [PolesOk]) hend'
  refine ⟨r, ?_, hw, hbs ▸ hsh⟩
  rw [h1] at hr
  have e1 : bs.map Break.lp = bps.map fun _ => false := by rw [hbs, List.map_map]; rfl
  have e2 : bs.map Break.rp = bps.map fun _ => false := by rw [hbs, List.map_map]; rfl
  rw [← hr, e1, e2]
  rfl

end Pacal.Standard
