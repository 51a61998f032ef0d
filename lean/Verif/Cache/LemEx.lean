import Verif.Cache.Lem
import Verif.Cache.ModelSteps
import Verif.Identity.LemExact

/-! Existence of the representations by definition; the steps of discrete distributions. -/

namespace Pacal.Cache
variable {D R : Type} {W : ℕ → Init D} {o : Ops D}

/-- the density by definition, with a bound on the depth -/
def pureVal (W : ℕ → Init D) : ℕ → ℕ → Except PyErr D
  | 0, _ => .error .recursion
  | fuel + 1, i =>
    match W i with
    | .atOnce ps f => (ps.mapM fun p => pureVal W fuel p) >>= f
    | .stepwise first fs => first >>= fun d => fs.foldlM (fun d f => f d) d

theorem mapM_congr' {f g : ℕ → Except PyErr D} : ∀ {ps : List ℕ}, (∀ p ∈ ps, f p = g p) → ps.mapM f = ps.mapM g
  | [], _ => rfl
  | p :: ps, h => by
    rw [List.mapM_cons, List.mapM_cons, h p (by simp), mapM_congr' fun q hq => h q (List.mem_cons_of_mem _ hq)]

theorem pureVal_fuel (hW : Built W) : ∀ f f' i, i < f → i < f' → pureVal W f i = pureVal W f' i
  | 0, _, _, h, _ => absurd h (Nat.not_lt_zero _)
  | _ + 1, 0, _, _, h => absurd h (Nat.not_lt_zero _)
  | f + 1, f' + 1, i, h, h' => by
    unfold pureVal
    rcases e : W i with ⟨ps, g⟩ | ⟨first, fs⟩
    · have : ∀ p ∈ ps, pureVal W f p = pureVal W f' p := fun p hp => by
        have hp' := hW i p (by rw [e]; exact hp)
        exact pureVal_fuel hW f f' p (by omega) (by omega)
      simp only
      rw [mapM_congr' this]
    · rfl

theorem byDefinition_exists (hW : Built W) (o : Ops D) : ∃ v, ByDefinition W o v := by
  let p : ℕ → Except PyErr D := fun i => pureVal W (i + 1) i
  refine ⟨fun i a => match a with
    | .pdf => p i
    | .cdf => p i >>= o.cumint
    | .cdfInterp => (p i >>= o.cumint) >>= o.interp
    | .ccdf => (p i >>= o.cumint) >>= o.rsub
    | .ccdfInterp => ((p i >>= o.cumint) >>= o.rsub) >>= o.interp, ?_⟩
  refine ⟨fun i ps f e => ?_, fun i first fs e => ?_, fun _ => rfl, fun _ => rfl, fun _ => rfl, fun _ => rfl⟩
  · show pureVal W (i + 1) i = (ps.mapM fun q => pureVal W (q + 1) q) >>= f
    rw [pureVal]
    simp only [e]
    rw [mapM_congr' fun q hq => pureVal_fuel hW i (q + 1) q (hW i q (by rw [e]; exact hq)) (Nat.lt_succ_self q)]
  · show pureVal W (i + 1) i = _
    rw [pureVal]
    simp only [e]

theorem runSteps_break {f : D → Except PyErr D} {rest : List (D → Except PyErr D)} {e : PyErr} :
    ∀ {done : List (D → Except PyErr D)} {d d' : D}, done.foldlM (fun d f => f d) d = .ok d' → f d' = .error e →
      runSteps (done ++ f :: rest) d = (some e, d')
  | [], d, d', hd, hf => by
    cases hd
    show runSteps (f :: rest) d = _
    unfold runSteps
    rw [hf]
  | g :: done, d, d', hd, hf => by
    rw [List.foldlM_cons] at hd
    show runSteps (g :: (done ++ f :: rest)) d = _
    unfold runSteps
    rcases e' : g d with _ | d''
    · rw [e'] at hd; cases hd
    · rw [e'] at hd
      exact runSteps_break hd hf

theorem cdf_keeps_pdf {i : ℕ} {s : State D} {d : D} (h : (s i).get .pdf = some d) :
    ((getAttr W o i .cdf s).2 i).get .pdf = some d := by
  show ((lazily i .cdf (andThen (getPdf W (i + 1) i) o.cumint) s).2 i).get .pdf = some d
  have h' : getPdf W (i + 1) i s = (.ok d, s) := getAttr_of_kept (o := o) (a := .pdf) h
  unfold lazily
  rcases e : (s i).get .cdf with _ | c
  · simp only [andThen, h']
    rcases o.cumint d with _ | c
    · exact h
    · show ((s.put i .cdf c) i).get .pdf = some d
      rw [put_get, if_neg (by simp)]
      exact h
  · exact h

/-- the result of `addAll` with the exception -/
def orAssertion (r : Option (PF ℝ)) : Except PyErr (PF ℝ) := match r with
  | none => .error .assertion
  | some l => .ok l

theorem steps_addAll (eps : ℝ) : ∀ (segs : List (Seg ℝ)) (l : PF ℝ),
    (segs.map (addStep eps)).foldlM (fun d f => f d) l = orAssertion (PF.addAll eps l segs)
  | [], _ => rfl
  | s :: segs, l => by
    rw [List.map_cons, List.foldlM_cons, PF.addAll]
    show (addStep eps s l >>= fun l => (segs.map (addStep eps)).foldlM (fun d f => f d) l) = _
    unfold addStep
    rcases e : PF.addSegment eps l s with _ | l'
    · rfl
    · exact steps_addAll eps segs l'

theorem addAll_append' (eps : ℝ) : ∀ (a b : List (Seg ℝ)) (l : PF ℝ),
    PF.addAll eps l (a ++ b) = (PF.addAll eps l a).bind fun F => PF.addAll eps F b
  | [], _, _ => rfl
  | s :: a, b, l => by
    show (PF.addSegment eps l s).bind (fun l' => PF.addAll eps l' (a ++ b)) = _
    rw [PF.addAll]
    rcases PF.addSegment eps l s with _ | l'
    · rfl
    · exact addAll_append' eps a b l'

theorem steps_discrete (eps : ℝ) (t : List (ℝ × ℝ)) :
    ((((tableSort t).map fun p => Seg.dirac p.1 p.2) ++ zeroPieces ((tableSort t).map Prod.fst)).map
      (addStep eps)).foldlM (fun d f => f d) [] = orAssertion (discretePF eps t) := by
  rw [steps_addAll, addAll_append']
  rfl

theorem tableSort_twice : tableSort [(0, 1 / 5), (0, 3 / 10), (1, 1 / 2)] = [(0, 1 / 5), (0, 3 / 10), (1, 1 / 2)] := by
  unfold tableSort
  refine List.mergeSort_of_pairwise ?_
  simp [pairLe]
  norm_num

theorem discrete_twice (eps : ℝ) : discrete eps [(0, 1 / 5), (0, 3 / 10), (1, 1 / 2)]
    = .stepwise (.ok []) ([addStep eps (.dirac 0 (1 / 5)), addStep eps (.dirac 0 (3 / 10)),
      addStep eps (.dirac 1 (1 / 2))] ++ addStep eps (.const 0 0 0) :: [addStep eps (.const 0 1 0)]) := by
  unfold discrete
  rw [tableSort_twice]
  rfl

theorem twice_done {eps : ℝ} (he : 0 ≤ eps) (he1 : eps < 1) :
    List.foldlM (fun (d : PF ℝ) (f : PF ℝ → Except PyErr (PF ℝ)) => f d) []
      [addStep eps (.dirac 0 (1 / 5)), addStep eps (.dirac 0 (3 / 10)), addStep eps (.dirac 1 (1 / 2))]
      = .ok [Seg.dirac 0 (1 / 2), Seg.dirac 1 (1 / 2)] := by
  have h1 : PF.addSegment eps [] (.dirac 0 (1 / 5)) = some [Seg.dirac (0 : ℝ) (1 / 5)] := rfl
  have h2 : PF.addSegment eps [Seg.dirac (0 : ℝ) (1 / 5)] (.dirac 0 (3 / 10)) = some [Seg.dirac 0 (1 / 2)] := by
    have : PF.mergeDirac eps 0 (3 / 10) [Seg.dirac (0 : ℝ) (1 / 5)] = some [Seg.dirac 0 (1 / 2)] := by
      have h : |(0 : ℝ) - 0| ≤ eps := by simpa using he
      rw [PF.mergeDirac, if_pos h]
      norm_num
    simp only [PF.addSegment, this]
  have h3 : PF.addSegment eps [Seg.dirac (0 : ℝ) (1 / 2)] (.dirac 1 (1 / 2))
      = some [Seg.dirac 0 (1 / 2), Seg.dirac 1 (1 / 2)] := by
    refine addSegment_split (l₁ := [Seg.dirac (0 : ℝ) (1 / 2)]) (l₂ := []) he (by simp [Seg.WF]) trivial ?_ (by simp)
    intro t ht
    obtain rfl := List.mem_singleton.1 ht
    refine ⟨ext_le.2 zero_le_one, fun a m a' m' e e' => ?_⟩
    cases e
    cases e'
    norm_num
    exact he1
  simp only [List.foldlM_cons, List.foldlM_nil, addStep, h1]
  show (match PF.addSegment eps [Seg.dirac (0 : ℝ) (1 / 5)] (.dirac 0 (3 / 10)) with
    | none => Except.error PyErr.assertion
    | some l' => .ok l') >>= _ = _
  simp only [h2]
  show (match PF.addSegment eps [Seg.dirac (0 : ℝ) (1 / 2)] (.dirac 1 (1 / 2)) with
    | none => Except.error PyErr.assertion
    | some l' => .ok l') >>= _ = _
  simp only [h3]
  rfl

theorem twice_break {eps : ℝ} :
    addStep eps (.const 0 0 0) [Seg.dirac 0 (1 / 2), Seg.dirac 1 (1 / 2)] = .error .assertion := by
  have hb : bisectLeft Seg.lt [Seg.dirac (0 : ℝ) (1 / 2), Seg.dirac 1 (1 / 2)] (.const 0 0 0) = 0 := by
    refine bisectBy_append _ [] _ (by simp) fun y hy => ?_
    simp only [List.mem_cons, List.not_mem_nil, or_false] at hy
    rcases hy with rfl | rfl <;> simp [Seg.lt, Seg.lo, Seg.hi]
  have hg : (Seg.gt (Seg.dirac (0 : ℝ) (1 / 2)) (.const 0 0 0) || Seg.gt (.const 0 0 0) (Seg.dirac (0 : ℝ) (1 / 2))) = false := by
    simp [Seg.gt, Seg.lo, Seg.hi]
  have hi : PF.insertSeg [Seg.dirac (0 : ℝ) (1 / 2), Seg.dirac 1 (1 / 2)] (.const 0 0 0) = none := by
    unfold PF.insertSeg
    simp only [hb, List.getElem?_cons_zero, hg]
    rfl
  simp only [addStep, PF.addSegment, hi]

end Pacal.Cache
