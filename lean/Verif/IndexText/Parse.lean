import Verif.IndexText.Lex
/-! The parser reads the printed tokens as a regrouping of the printed expression. -/
namespace Verif.IndexText

/-- The parser succeeds with this result, with every sufficient bound. -/
def Ev (m : Mode) (ts : List Token) (r : X × List Token) : Prop := ∃ n, ∀ f, n ≤ f → parse f m ts = some r

theorem Ev.of_step {m : Mode} {ts : List Token} {r : X × List Token} (h : ∃ n, ∀ f, n ≤ f → parse (f + 1) m ts = some r) : Ev m ts r := by
  obtain ⟨n, h⟩ := h
  refine ⟨n + 1, fun f hf => ?_⟩
  obtain ⟨g, rfl⟩ : ∃ g, f = g + 1 := ⟨f - 1, by omega⟩
  exact h g (by omega)

theorem Ev.step1 {m m1 : Mode} {ts ts1 : List Token} {r r1 : X × List Token} (h1 : Ev m1 ts1 r1)
    (h : ∀ f, parse f m1 ts1 = some r1 → parse (f + 1) m ts = some r) : Ev m ts r :=
  let ⟨n, hn⟩ := h1
  .of_step ⟨n, fun f hf => h f (hn f hf)⟩

theorem Ev.step2 {m m1 m2 : Mode} {ts ts1 ts2 : List Token} {r r1 r2 : X × List Token} (h1 : Ev m1 ts1 r1) (h2 : Ev m2 ts2 r2)
    (h : ∀ f, parse f m1 ts1 = some r1 → parse f m2 ts2 = some r2 → parse (f + 1) m ts = some r) : Ev m ts r :=
  let ⟨n1, hn1⟩ := h1
  let ⟨n2, hn2⟩ := h2
  .of_step ⟨max n1 n2, fun f hf => h f (hn1 f (by omega)) (hn2 f (by omega))⟩

theorem Ev.expr {ts ts' : List Token} {a : X} {r} (h1 : Ev .term ts (a, ts')) (h2 : Ev (.exprLoop a) ts' r) : Ev .expr ts r :=
  .step2 h1 h2 fun f e1 e2 => by
    simp only [parse, e1, Option.bind_some]; exact e2

theorem Ev.term {ts ts' : List Token} {a : X} {r} (h1 : Ev .factor ts (a, ts')) (h2 : Ev (.termLoop a) ts' r) : Ev .term ts r :=
  .step2 h1 h2 fun f e1 e2 => by
    simp only [parse, e1, Option.bind_some]; exact e2

theorem Ev.addOp {op : Op} (hop : op.prec = 6) {ts ts' : List Token} {l a : X} {r} (h1 : Ev .term ts (a, ts'))
    (h2 : Ev (.exprLoop (.bin op l a)) ts' r) : Ev (.exprLoop l) (.sym op.char :: ts) r :=
  .step2 h1 h2 fun f e1 e2 => by
    cases op with
    | add => simp only [parse, Op.char, e1, Option.bind_some]; exact e2
    | sub => simp only [parse, Op.char, e1, Option.bind_some]; exact e2
    | mul => simp [Op.prec] at hop
    | div => simp [Op.prec] at hop

theorem Ev.mulOp {op : Op} (hop : op.prec = 5) {ts ts' : List Token} {l a : X} {r} (h1 : Ev .factor ts (a, ts'))
    (h2 : Ev (.termLoop (.bin op l a)) ts' r) : Ev (.termLoop l) (.sym op.char :: ts) r :=
  .step2 h1 h2 fun f e1 e2 => by
    cases op with
    | mul => simp only [parse, Op.char, e1, Option.bind_some]; exact e2
    | div => simp only [parse, Op.char, e1, Option.bind_some]; exact e2
    | add => simp [Op.prec] at hop
    | sub => simp [Op.prec] at hop

/-- What ends a sum. -/
def StopE (ts : List Token) : Prop := ∀ t ∈ ts.head?, t ≠ .sym '+' ∧ t ≠ .sym '-'
/-- What ends a product. -/
def StopT (ts : List Token) : Prop := ∀ t ∈ ts.head?, t ≠ .sym '*' ∧ t ≠ .sym '/'
/-- What does not continue an access. -/
def Follow (ts : List Token) : Prop := ∀ t ∈ ts.head?, t ≠ .sym '(' ∧ t ≠ .sym '_'

theorem Ev.exprEnd {ts : List Token} {l : X} (h : StopE ts) : Ev (.exprLoop l) ts (l, ts) :=
  .of_step ⟨0, fun f _ => by
    simp only [parse]
    split
    · exact absurd rfl (h _ rfl).1
    · exact absurd rfl (h _ rfl).2
    · rfl⟩

theorem Ev.termEnd {ts : List Token} {l : X} (h : StopT ts) : Ev (.termLoop l) ts (l, ts) :=
  .of_step ⟨0, fun f _ => by
    simp only [parse]
    split
    · exact absurd rfl (h _ rfl).1
    · exact absurd rfl (h _ rfl).2
    · rfl⟩

theorem Ev.paren {ts rest : List Token} {a : X} (h : Ev .expr ts (a, .sym ')' :: rest)) : Ev .factor (.sym '(' :: ts) (a, rest) :=
  .step1 h fun f e => by simp only [parse, e, Option.bind_some]

theorem Ev.neg {ts rest : List Token} {a : X} (h : Ev .factor ts (a, rest)) : Ev .factor (.sym '-' :: ts) (.neg a, rest) :=
  .step1 h fun f e => by simp only [parse, e, Option.map_some]

theorem Ev.int {w : List Char} {rest : List Token} : Ev .factor (.int w :: rest) (.lit (readInt w), rest) :=
  .of_step ⟨0, fun f _ => by simp only [parse, parseFinal]⟩

theorem varList_toks : ∀ {vars : List (List Char)}, vars ≠ [] → ∀ (rest : List Token), varList (varToks vars ++ .sym ')' :: rest) = some (vars, .sym ')' :: rest)
  | [], h, _ => absurd rfl h
  | [v], _, rest => by
    simp only [varToks, List.cons_append, List.nil_append]
    unfold varList
    split
    · rename_i e; injection e with _ e; injection e with e; injection e with e; exact absurd e (by decide)
    · rename_i e; injection e with e1 e2; injection e1 with e1; subst e1; subst e2; rfl
    · rename_i h1 h2; exact absurd rfl (h2 _ _)
  | v :: v' :: vs, _, rest => by
    have ih := varList_toks (vars := v' :: vs) (by simp) rest
    simp only [varToks, List.cons_append]
    rw [varList]
    simp only [ih, Option.map_some]

theorem parseAccess_toks {name : List Char} {vars : List (List Char)} {rest : List Token} (hr : Follow rest) :
    parseAccess (accToks name vars ++ rest) = some ((name, vars), rest) := by
  unfold accToks
  by_cases hv : vars = []
  · rw [if_pos hv, hv]
    simp only [List.cons_append, List.nil_append]
    cases rest with
    | nil => rfl
    | cons t ts =>
      obtain ⟨h1, h2⟩ := hr t rfl
      unfold parseAccess
      split
      · rename_i e; injection e with _ e; injection e with e; exact absurd e h2
      · rename_i e; injection e with _ e; injection e with e; exact absurd e h2
      · rename_i e; injection e with _ e; injection e with e; exact absurd e h2
      · rename_i e; injection e with _ e; injection e with e; exact absurd e h1
      · rename_i e; injection e with e1 e2; injection e1 with e1; subst e1; subst e2; rfl
      · rename_i h; exact absurd rfl (h _ _)
  · rw [if_neg hv]
    have := varList_toks hv rest
    simp only [List.cons_append, List.append_assoc, List.nil_append]
    unfold parseAccess
    simp only [this, Option.bind_some]

theorem Ev.acc {name : List Char} {vars : List (List Char)} {rest : List Token} (hr : Follow rest) :
    Ev .factor (accToks name vars ++ rest) (.acc name vars, rest) :=
  .of_step ⟨0, fun f _ => by
    have h := parseAccess_toks (name := name) (vars := vars) hr
    have hh : ∃ ts, accToks name vars ++ rest = .ident name :: ts := by
      unfold accToks
      split
      · exact ⟨_, rfl⟩
      · exact ⟨_, rfl⟩
    obtain ⟨ts, hts⟩ := hh
    rw [hts] at h ⊢
    simp only [parse, parseFinal, h, Option.map_some]⟩

/-! ### The regrouped expression -/

def close : Option (Op × X) → X → X
  | none, x => x
  | some (o, l), x => .bin o l x

/-- The expression that is read from the printed text of `e`; `some (o, l)`: after `l o` in a chain of operators of
the same precedence. -/
def g : X → Option (Op × X) → X
  | .lit n, k => close k (if n < 0 then .neg (.lit n.natAbs) else .lit n.natAbs)
  | .other w, k => close k (.other w)
  | .acc n vs, k => close k (.acc n vs)
  | .neg a, k => close k (.neg (g a none))
  | .bin o' a b, none => g b (some (o', g a none))
  | .bin o' a b, some (o, l) =>
    if o'.prec = o.prec then g b (some (o', g a (some (o, l)))) else .bin o l (g b (some (o', g a none)))

/-- Regrouping keeps the value. -/
theorem eval_g {V : Type} {A : Alg V} (hA : Laws A) : ∀ (e : X), WF e → eval A (g e none) = eval A e ∧
    ∀ o l, (o = .sub → e.isAdd = false) → (o = .div → e.isMul = false) →
      eval A (g e (some (o, l))) = A.bin o (eval A l) (eval A e) := by
  intro e
  induction e with
  | lit n =>
    intro _
    have : eval A (if n < 0 then X.neg (.lit n.natAbs) else .lit n.natAbs) = A.lit n := by
      by_cases hn : n < 0
      · rw [if_pos hn]
        show A.neg (A.lit n.natAbs) = _
        rw [hA.neg_lit]
        congr 1; omega
      · rw [if_neg hn]
        show A.lit n.natAbs = _
        congr 1; omega
    refine ⟨this, fun o l _ _ => ?_⟩
    show A.bin o (eval A l) (eval A (if n < 0 then X.neg (.lit n.natAbs) else .lit n.natAbs)) = _
    rw [this]; rfl
  | other w => intro h; exact h.elim
  | acc n vs => intro _; exact ⟨rfl, fun o l _ _ => rfl⟩
  | neg a ih =>
    intro h
    have := (ih h).1
    refine ⟨?_, fun o l _ _ => ?_⟩
    · show A.neg (eval A (g a none)) = _
      rw [this]; rfl
    · show A.bin o (eval A l) (A.neg (eval A (g a none))) = _
      rw [this]; rfl
  | bin o' a b iha ihb =>
    intro h
    obtain ⟨ha, hb, hsub, hdiv⟩ := h
    have h0 : eval A (g b (some (o', g a none))) = A.bin o' (eval A a) (eval A b) := by
      rw [(ihb hb).2 o' _ hsub hdiv, (iha ha).1]
    refine ⟨h0, fun o l hs hd => ?_⟩
    show eval A (if o'.prec = o.prec then _ else _) = _
    by_cases hp : o'.prec = o.prec
    · rw [if_pos hp, (ihb hb).2 o' _ hsub hdiv]
      have ha2 : eval A (g a (some (o, l))) = A.bin o (eval A l) (eval A a) := by
        refine (iha ha).2 o l (fun e => ?_) (fun e => ?_)
        · subst e
          have := hs rfl
          cases o' <;> simp [X.isAdd, Op.prec] at this hp
        · subst e
          have := hd rfl
          cases o' <;> simp [X.isMul, Op.prec] at this hp
      rw [ha2]
      cases o with
      | sub => have := hs rfl; cases o' <;> simp [X.isAdd, Op.prec] at this hp
      | div => have := hd rfl; cases o' <;> simp [X.isMul, Op.prec] at this hp
      | add =>
        cases o' with
        | add => exact (hA.add_add _ _ _).symm
        | sub => exact (hA.add_sub _ _ _).symm
        | mul => simp [Op.prec] at hp
        | div => simp [Op.prec] at hp
      | mul =>
        cases o' with
        | mul => exact (hA.mul_mul _ _ _).symm
        | div => exact (hA.mul_div _ _ _).symm
        | add => simp [Op.prec] at hp
        | sub => simp [Op.prec] at hp
    · rw [if_neg hp]
      show A.bin o (eval A l) (eval A _) = _
      rw [h0]; rfl

/-! ### Reading the tokens -/

structure Good (e : X) : Prop where
  F : ∀ p rest, 3 ≤ p → Follow rest → (e.isAdd = true → p < 6) → (e.isMul = true → p < 5) → Ev .factor (prT e p ++ rest) (g e none, rest)
  T1 : ∀ p rest r, 3 ≤ p → Follow rest → (e.isAdd = true → p < 6) → Ev (.termLoop (g e none)) rest r → Ev .term (prT e p ++ rest) r
  T2 : ∀ (o : Op) l rest r, o.prec = 5 → Follow rest → Ev (.termLoop (g e (some (o, l)))) rest r →
    Ev (.termLoop l) (.sym o.char :: prT e 5 ++ rest) r
  E1 : ∀ p rest r, 3 ≤ p → Follow rest → StopT rest → Ev (.exprLoop (g e none)) rest r → Ev .expr (prT e p ++ rest) r
  E2 : ∀ (o : Op) l rest r, o.prec = 6 → Follow rest → StopT rest → Ev (.exprLoop (g e (some (o, l)))) rest r →
    Ev (.exprLoop l) (.sym o.char :: prT e 6 ++ rest) r

/-- Expressions that are never split by the context. -/
theorem Good.atom {e : X} (hA : e.isAdd = false) (hM : e.isMul = false) (hg : ∀ o l, g e (some (o, l)) = .bin o l (g e none))
    (F : ∀ p rest, 3 ≤ p → Follow rest → Ev .factor (prT e p ++ rest) (g e none, rest)) : Good e where
  F p rest hp hr _ _ := F p rest hp hr
  T1 p rest r hp hr _ h := .term (F p rest hp hr) h
  T2 o l rest r ho hr h := .mulOp ho (F 5 rest (by decide) hr) (by rw [hg] at h; exact h)
  E1 p rest r hp hr hs h := .expr (.term (F p rest hp hr) (.termEnd hs)) h
  E2 o l rest r ho hr hs h := .addOp ho (.term (F 6 rest (by decide) hr) (.termEnd hs)) (by rw [hg] at h; exact h)

theorem follow_op (o : Op) (ts : List Token) : Follow (.sym o.char :: ts) := by
  intro t ht; simp at ht; subst ht; cases o <;> decide
theorem follow_rparen (ts : List Token) : Follow (.sym ')' :: ts) := by
  intro t ht; simp at ht; subst ht; decide
theorem stopE_rparen (ts : List Token) : StopE (.sym ')' :: ts) := by
  intro t ht; simp at ht; subst ht; decide
theorem stopT_rparen (ts : List Token) : StopT (.sym ')' :: ts) := by
  intro t ht; simp at ht; subst ht; decide
theorem stopT_add {o : Op} (h : o.prec = 6) (ts : List Token) : StopT (.sym o.char :: ts) := by
  intro t ht; simp at ht; subst ht; cases o with
  | add => decide
  | sub => decide
  | mul => simp [Op.prec] at h
  | div => simp [Op.prec] at h

theorem readInt_dec {n : Nat} (h : n ≤ 2 ^ 63 - 1) : readInt (dec n) = n := by
  unfold readInt
  rw [decVal_dec]
  omega

theorem good : ∀ (e : X), WF e → Good e := by
  intro e
  induction e with
  | lit n =>
    intro h
    refine Good.atom rfl rfl (fun _ _ => rfl) fun p rest _ _ => ?_
    have hn : readInt (dec n.natAbs) = (n.natAbs : Int) := readInt_dec h
    simp only [prT, intToks, g, close]
    by_cases hlt : n < 0
    · rw [if_pos hlt, if_pos hlt]
      have := Ev.neg (Ev.int (w := dec n.natAbs) (rest := rest))
      rw [hn] at this
      exact this
    · rw [if_neg hlt, if_neg hlt]
      have := Ev.int (w := dec n.natAbs) (rest := rest)
      rw [hn] at this
      exact this
  | other w => intro h; exact h.elim
  | acc n vs => intro h; exact Good.atom rfl rfl (fun _ _ => rfl) fun p rest _ hr => Ev.acc hr
  | neg a ih =>
    intro h
    refine Good.atom rfl rfl (fun _ _ => rfl) fun p rest hp hr => ?_
    have hp : ¬ 3 > p := by omega
    simp only [prT, if_neg hp]
    exact Ev.neg ((ih h).F 3 rest (by decide) hr (fun _ => by decide) (fun _ => by decide))
  | bin o a b iha ihb =>
    intro h
    have Ga := iha h.1
    have Gb := ihb h.2.1
    by_cases ho : o.prec = 6
    · have hadd : (X.bin o a b).isAdd = true := by cases o <;> first | rfl | simp [Op.prec] at ho
      have hmul : (X.bin o a b).isMul = false := by cases o <;> first | rfl | simp [Op.prec] at ho
      have hbody : ∀ rest r, Follow rest → StopT rest → Ev (.exprLoop (g (.bin o a b) none)) rest r →
          Ev .expr ((prT a o.prec ++ .sym o.char :: prT b o.prec) ++ rest) r := by
        intro rest r hr hs hk
        have := Ga.E1 6 (.sym o.char :: prT b 6 ++ rest) r (by decide) (follow_op _ _) (stopT_add ho _) (Gb.E2 o _ rest r ho hr hs hk)
        rw [ho]; simpa using this
      have F : ∀ p rest, p < 6 → Ev .factor (prT (.bin o a b) p ++ rest) (g (.bin o a b) none, rest) := by
        intro p rest hp
        have := Ev.paren (hbody (.sym ')' :: rest) _ (follow_rparen _) (stopT_rparen _) (.exprEnd (stopE_rparen _)))
        simp only [prT]
        rw [if_pos (by omega)]
        simpa using this
      have hk : ∀ (o' : Op) l, o'.prec = 5 → g (.bin o a b) (some (o', l)) = .bin o' l (g (.bin o a b) none) := by
        intro o' l h'
        show (if o.prec = o'.prec then _ else _) = _
        rw [if_neg (by omega)]; rfl
      constructor
      · intro p rest _ _ hp _; exact F p rest (hp hadd)
      · intro p rest r _ _ hp hk; exact .term (F p rest (hp hadd)) hk
      · intro o' l rest r ho' hr hh
        rw [hk o' l ho'] at hh
        exact .mulOp ho' (F 5 rest (by decide)) hh
      · intro p rest r hp hr hs hh
        by_cases hp6 : p < 6
        · exact .expr (.term (F p rest hp6) (.termEnd hs)) hh
        · have := hbody rest r hr hs hh
          simp only [prT]
          rw [if_neg (by omega)]
          exact this
      · intro o' l rest r ho' hr hs hh
        have hpo : o.prec = o'.prec := by omega
        simp only [g, if_pos hpo] at hh
        have := Ga.E2 o' l (.sym o.char :: prT b 6 ++ rest) r ho' (follow_op _ _) (stopT_add ho _) (Gb.E2 o _ rest r ho hr hs hh)
        simp only [prT]
        rw [if_neg (by omega), ho]
        simpa using this
    · have ho : o.prec = 5 := by cases o <;> first | rfl | simp [Op.prec] at ho
      have hadd : (X.bin o a b).isAdd = false := by cases o <;> first | rfl | simp [Op.prec] at ho
      have hmul : (X.bin o a b).isMul = true := by cases o <;> first | rfl | simp [Op.prec] at ho
      have hok : ∀ x : X, x.isAdd = true → (5 : Nat) < 6 := fun _ _ => by decide
      have hbody : ∀ rest r, Follow rest → Ev (.termLoop (g (.bin o a b) none)) rest r →
          Ev .term ((prT a o.prec ++ .sym o.char :: prT b o.prec) ++ rest) r := by
        intro rest r hr hk
        have := Ga.T1 5 (.sym o.char :: prT b 5 ++ rest) r (by decide) (follow_op _ _) (hok a) (Gb.T2 o _ rest r ho hr hk)
        rw [ho]; simpa using this
      have F : ∀ p rest, p < 5 → Ev .factor (prT (.bin o a b) p ++ rest) (g (.bin o a b) none, rest) := by
        intro p rest hp
        have := Ev.paren (.expr (hbody (.sym ')' :: rest) _ (follow_rparen _) (.termEnd (stopT_rparen _))) (.exprEnd (stopE_rparen _)))
        simp only [prT]
        rw [if_pos (by omega)]
        simpa using this
      have T1 : ∀ p rest r, Follow rest → Ev (.termLoop (g (.bin o a b) none)) rest r → Ev .term (prT (.bin o a b) p ++ rest) r := by
        intro p rest r hr hk
        by_cases hp : p < 5
        · exact .term (F p rest hp) hk
        · have := hbody rest r hr hk
          simp only [prT]
          rw [if_neg (by omega)]
          exact this
      constructor
      · intro p rest _ _ _ hp; exact F p rest (hp hmul)
      · intro p rest r _ hr _ hk; exact T1 p rest r hr hk
      · intro o' l rest r ho' hr hh
        have hpo : o.prec = o'.prec := by omega
        simp only [g, if_pos hpo] at hh
        have := Ga.T2 o' l (.sym o.char :: prT b 5 ++ rest) r ho' (follow_op _ _) (Gb.T2 o _ rest r ho hr hh)
        simp only [prT]
        rw [if_neg (by omega), ho]
        simpa using this
      · intro p rest r _ hr hs hh
        exact .expr (T1 p rest _ hr (.termEnd hs)) hh
      · intro o' l rest r ho' hr hs hh
        have hpo : ¬ o.prec = o'.prec := by omega
        simp only [g, if_neg hpo] at hh
        exact .addOp ho' (T1 6 rest _ hr (.termEnd hs)) hh

end Verif.IndexText
