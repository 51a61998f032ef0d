import Verif.Names.Spec

/-! A name can be read in one way only: every way of reading it is found by the same parser. -/

namespace Pacal.Names

/-- what the parser is doing -/
inductive Mode
  | expr | term | factor | primary | moreExpr (v : ℝ) | moreTerm (v : ℝ)

/-- recursive descent with a bound on the depth -/
noncomputable def parse (E : Env) : ℕ → Mode → List Tok → Option (ℝ × List Tok)
  | 0, _, _ => none
  | n + 1, .primary, ts =>
    match ts with
    | .num x :: r => some (x, r)
    | .var i :: r => some (E i, r)
    | .lpar :: r =>
      match parse E n .expr r with
      | some (v, .rpar :: r') => some (v, r')
      | _ => none
    | .fn f :: .lpar :: r =>
      match parse E n .expr r with
      | some (v, .rpar :: r') => some (f.value v, r')
      | _ => none
    | .min :: .lpar :: r =>
      match parse E n .expr r with
      | some (v, .comma :: r') =>
        match parse E n .expr r' with
        | some (w, .rpar :: r'') => some (min v w, r'')
        | _ => none
      | _ => none
    | .max :: .lpar :: r =>
      match parse E n .expr r with
      | some (v, .comma :: r') =>
        match parse E n .expr r' with
        | some (w, .rpar :: r'') => some (max v w, r'')
        | _ => none
      | _ => none
    | .bar :: r =>
      match parse E n .expr r with
      | some (v, .bar :: r') => some (|v|, r')
      | _ => none
    | _ => none
  | n + 1, .factor, ts =>
    match ts with
    | .minus :: r => (parse E n .factor r).map fun p => (-p.1, p.2)
    | .plus :: r => parse E n .factor r
    | ts => parse E n .primary ts
  | n + 1, .term, ts => (parse E n .factor ts).bind fun p => parse E n (.moreTerm p.1) p.2
  | n + 1, .moreTerm v, ts =>
    match ts with
    | .star :: r => (parse E n .factor r).bind fun p => parse E n (.moreTerm (v * p.1)) p.2
    | .slash :: r => (parse E n .factor r).bind fun p => parse E n (.moreTerm (v / p.1)) p.2
    | ts => some (v, ts)
  | n + 1, .expr, ts => (parse E n .term ts).bind fun p => parse E n (.moreExpr p.1) p.2
  | n + 1, .moreExpr v, ts =>
    match ts with
    | .plus :: r => (parse E n .term r).bind fun p => parse E n (.moreExpr (v + p.1)) p.2
    | .minus :: r => (parse E n .term r).bind fun p => parse E n (.moreExpr (v - p.1)) p.2
    | ts => some (v, ts)

/-- with enough depth the parser gives `res` -/
def Finds (E : Env) (m : Mode) (ts : List Tok) (res : ℝ × List Tok) : Prop :=
  ∃ N, ∀ n, N ≤ n → parse E n m ts = some res

variable {E : Env}

theorem finds_step {m m' : Mode} {ts ts' : List Tok} {res res' : ℝ × List Tok} (h : Finds E m' ts' res')
    (hs : ∀ n, parse E n m' ts' = some res' → parse E (n + 1) m ts = some res) : Finds E m ts res := by
  obtain ⟨N, hN⟩ := h
  refine ⟨N + 1, fun n hn => ?_⟩
  obtain ⟨n, rfl⟩ : ∃ k, n = k + 1 := ⟨n - 1, by omega⟩
  exact hs n (hN n (by omega))

theorem finds_step2 {m m' m'' : Mode} {ts ts' ts'' : List Tok} {res res' res'' : ℝ × List Tok} (h : Finds E m' ts' res')
    (h' : Finds E m'' ts'' res'')
    (hs : ∀ n, parse E n m' ts' = some res' → parse E n m'' ts'' = some res'' → parse E (n + 1) m ts = some res) :
    Finds E m ts res := by
  obtain ⟨N, hN⟩ := h
  obtain ⟨N', hN'⟩ := h'
  refine ⟨max N N' + 1, fun n hn => ?_⟩
  obtain ⟨n, rfl⟩ : ∃ k, n = k + 1 := ⟨n - 1, by omega⟩
  exact hs n (hN n (by omega)) (hN' n (by omega))

theorem finds_now {m : Mode} {ts : List Tok} {res : ℝ × List Tok} (h : ∀ n, parse E (n + 1) m ts = some res) :
    Finds E m ts res := by
  refine ⟨1, fun n hn => ?_⟩
  obtain ⟨n, rfl⟩ : ∃ k, n = k + 1 := ⟨n - 1, by omega⟩
  exact h n

/-- the rest does not go on with a multiplication or division -/
def NoMul (r : List Tok) : Prop := ∀ r', r ≠ .star :: r' ∧ r ≠ .slash :: r'

/-- the rest does not go on with an operator -/
def NoAdd (r : List Tok) : Prop := NoMul r ∧ ∀ r', r ≠ .plus :: r' ∧ r ≠ .minus :: r'

theorem moreTerm_end {v : ℝ} {r : List Tok} (h : NoMul r) : Finds E (.moreTerm v) r (v, r) := by
  refine finds_now fun n => ?_
  match r, h with
  | [], _ => rfl
  | .star :: r', h => exact absurd rfl (h r').1
  | .slash :: r', h => exact absurd rfl (h r').2
  | .num _ :: _, _ => rfl
  | .var _ :: _, _ => rfl
  | .fn _ :: _, _ => rfl
  | .min :: _, _ => rfl
  | .max :: _, _ => rfl
  | .plus :: _, _ => rfl
  | .minus :: _, _ => rfl
  | .lpar :: _, _ => rfl
  | .rpar :: _, _ => rfl
  | .comma :: _, _ => rfl
  | .bar :: _, _ => rfl

theorem moreExpr_end {v : ℝ} {r : List Tok} (h : NoAdd r) : Finds E (.moreExpr v) r (v, r) := by
  refine finds_now fun n => ?_
  match r, h with
  | [], _ => rfl
  | .plus :: r', h => exact absurd rfl (h.2 r').1
  | .minus :: r', h => exact absurd rfl (h.2 r').2
  | .num _ :: _, _ => rfl
  | .var _ :: _, _ => rfl
  | .fn _ :: _, _ => rfl
  | .min :: _, _ => rfl
  | .max :: _, _ => rfl
  | .star :: _, _ => rfl
  | .slash :: _, _ => rfl
  | .lpar :: _, _ => rfl
  | .rpar :: _, _ => rfl
  | .comma :: _, _ => rfl
  | .bar :: _, _ => rfl

/-- what has to follow for the parser to give `res` -/
def After (E : Env) : Level → ℝ → List Tok → ℝ × List Tok → Prop
  | .expr, v, r, res => NoMul r ∧ Finds E (.moreExpr v) r res
  | .term, v, r, res => Finds E (.moreTerm v) r res
  | .factor, v, r, res => res = (v, r)
  | .primary, v, r, res => res = (v, r)

/-- the mode that reads a level -/
def Level.mode : Level → Mode
  | .expr => .expr
  | .term => .term
  | .factor => .factor
  | .primary => .primary

theorem closed (t : Tok) (r : List Tok) (h : t = .rpar ∨ t = .comma ∨ t = .bar) : NoAdd (t :: r) := by
  rcases h with rfl | rfl | rfl <;> exact ⟨fun _ => ⟨by simp, by simp⟩, fun _ => ⟨by simp, by simp⟩⟩

theorem after_end {v : ℝ} {r : List Tok} (h : NoAdd r) : After E .expr v r (v, r) := ⟨h.1, moreExpr_end h⟩

/-- no primary begins with a sign -/
theorem primary_head {l : Level} {t : List Tok} {v : ℝ} (h : Reads E l t v) (hl : l = .primary) :
    ∀ r, (∀ r', t ++ r ≠ .minus :: r') ∧ (∀ r', t ++ r ≠ .plus :: r') := by
  intro r
  cases h <;> first | (cases hl; done) | simp

theorem reads_finds {l : Level} {t : List Tok} {v : ℝ} (h : Reads E l t v) :
    ∀ r res, After E l v r res → Finds E l.mode (t ++ r) res := by
  induction h with
  | num _ => rintro r res rfl; exact finds_now fun n => rfl
  | var i => rintro r res rfl; exact finds_now fun n => rfl
  | @paren t v _ ih =>
    rintro r res rfl
    refine finds_step (ih (.rpar :: r) _ (after_end (closed _ _ (.inl rfl)))) fun n hn => ?_
    simp only [Level.mode] at hn
    simp [parse, Level.mode, hn]
  | @call f t v _ ih =>
    rintro r res rfl
    refine finds_step (ih (.rpar :: r) _ (after_end (closed _ _ (.inl rfl)))) fun n hn => ?_
    simp only [Level.mode] at hn
    simp [parse, Level.mode, hn]
  | @min t v u w _ _ ih ih' =>
    rintro r res rfl
    refine finds_step2 (ih (.comma :: (u ++ .rpar :: r)) _ (after_end (closed _ _ (.inr (.inl rfl)))))
      (ih' (.rpar :: r) _ (after_end (closed _ _ (.inl rfl)))) fun n hn hn' => ?_
    simp only [Level.mode] at hn hn'
    simp [parse, Level.mode, hn, hn']
  | @max t v u w _ _ ih ih' =>
    rintro r res rfl
    refine finds_step2 (ih (.comma :: (u ++ .rpar :: r)) _ (after_end (closed _ _ (.inr (.inl rfl)))))
      (ih' (.rpar :: r) _ (after_end (closed _ _ (.inl rfl)))) fun n hn hn' => ?_
    simp only [Level.mode] at hn hn'
    simp [parse, Level.mode, hn, hn']
  | @abs t v _ ih =>
    rintro r res rfl
    refine finds_step (ih (.bar :: r) _ (after_end (closed _ _ (.inr (.inr rfl))))) fun n hn => ?_
    simp only [Level.mode] at hn
    simp [parse, Level.mode, hn]
  | @primary t v h ih =>
    rintro r res rfl
    refine finds_step (ih r _ rfl) fun n hn => ?_
    have hh := primary_head h rfl r
    simp only [Level.mode] at hn ⊢
    unfold parse
    split
    · exact absurd ‹_› (hh.1 _)
    · exact absurd ‹_› (hh.2 _)
    · exact hn
  | @neg t v _ ih =>
    rintro r res rfl
    refine finds_step (ih r _ rfl) fun n hn => ?_
    simp only [Level.mode] at hn
    simp [parse, Level.mode, hn]
  | @pos t v _ ih =>
    rintro r res rfl
    refine finds_step (ih r _ rfl) fun n hn => ?_
    simp only [Level.mode] at hn
    simp [parse, Level.mode, hn]
  | @factor t v _ ih =>
    intro r res hr
    refine finds_step2 (ih r _ rfl) hr fun n hn hn' => ?_
    simp only [Level.mode] at hn
    simp [parse, Level.mode, hn, hn']
  | @mul t v u w _ _ ih ih' =>
    intro r res hr
    rw [List.append_assoc]
    refine ih _ _ ?_
    refine finds_step2 (ih' r _ rfl) hr fun n hn hn' => ?_
    simp only [Level.mode] at hn
    simp [parse, hn, hn']
  | @div t v u w _ _ ih ih' =>
    intro r res hr
    rw [List.append_assoc]
    refine ih _ _ ?_
    refine finds_step2 (ih' r _ rfl) hr fun n hn hn' => ?_
    simp only [Level.mode] at hn
    simp [parse, hn, hn']
  | @term t v _ ih =>
    intro r res hr
    refine finds_step2 (ih r _ (moreTerm_end hr.1)) hr.2 fun n hn hn' => ?_
    simp only [Level.mode] at hn
    simp [parse, Level.mode, hn, hn']
  | @add t v u w _ _ ih ih' =>
    intro r res hr
    rw [List.append_assoc]
    refine ih _ _ ⟨fun _ => ⟨by simp, by simp⟩, ?_⟩
    refine finds_step2 (ih' r _ (moreTerm_end hr.1)) hr.2 fun n hn hn' => ?_
    simp only [Level.mode] at hn
    simp [parse, hn, hn']
  | @sub t v u w _ _ ih ih' =>
    intro r res hr
    rw [List.append_assoc]
    refine ih _ _ ⟨fun _ => ⟨by simp, by simp⟩, ?_⟩
    refine finds_step2 (ih' r _ (moreTerm_end hr.1)) hr.2 fun n hn hn' => ?_
    simp only [Level.mode] at hn
    simp [parse, hn, hn']

end Pacal.Names
