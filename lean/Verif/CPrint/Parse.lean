import Verif.CPrint.Lex
/-! The parser reads the printed tokens as the printed expression. -/
namespace Verif.CPrint

/-- The parser succeeds with this result, with every sufficient bound. -/
def Ev (m : Mode) (ts : List Tok) (r : C × List Tok) : Prop := ∃ n, ∀ f, n ≤ f → parse f m ts = some r

theorem Ev.of_step {m : Mode} {ts : List Tok} {r : C × List Tok} (h : ∃ n, ∀ f, n ≤ f → parse (f + 1) m ts = some r) : Ev m ts r := by
  obtain ⟨n, h⟩ := h
  refine ⟨n + 1, fun f hf => ?_⟩
  obtain ⟨g, rfl⟩ : ∃ g, f = g + 1 := ⟨f - 1, by omega⟩
  exact h g (by omega)

/-- One step of the parser needs the results of others. -/
theorem Ev.step1 {m m1 : Mode} {ts ts1 : List Tok} {r r1 : C × List Tok} (h1 : Ev m1 ts1 r1)
    (h : ∀ f, parse f m1 ts1 = some r1 → parse (f + 1) m ts = some r) : Ev m ts r :=
  let ⟨n, hn⟩ := h1
  .of_step ⟨n, fun f hf => h f (hn f hf)⟩

theorem Ev.step2 {m m1 m2 : Mode} {ts ts1 ts2 : List Tok} {r r1 r2 : C × List Tok} (h1 : Ev m1 ts1 r1) (h2 : Ev m2 ts2 r2)
    (h : ∀ f, parse f m1 ts1 = some r1 → parse f m2 ts2 = some r2 → parse (f + 1) m ts = some r) : Ev m ts r :=
  let ⟨n1, hn1⟩ := h1
  let ⟨n2, hn2⟩ := h2
  .of_step ⟨max n1 n2, fun f hf => h f (hn1 f (by omega)) (hn2 f (by omega))⟩

theorem Ev.level {n : Nat} {ts ts' : List Tok} {a : C} {r} (h1 : Ev (.level (n + 1)) ts (a, ts')) (h2 : Ev (.chain (n + 2) a) ts' r) :
    Ev (.level (n + 2)) ts r :=
  .step2 h1 h2 fun f e1 e2 => by
    show ((parse f (.level (n + 1)) ts).bind fun r => parse f (.chain (n + 2) r.1) r.2) = _
    rw [e1]; exact e2

theorem Ev.chain_end {n : Nat} {ts : List Tok} {a : C} (h : opAt n ts = none) : Ev (.chain n a) ts (a, ts) :=
  .of_step ⟨0, fun f _ => by simp only [parse, h]⟩

theorem Ev.chain_op {n : Nat} {ts ts' rest : List Tok} {a b : C} {op : BOp} {r} (h : opAt n ts = some (op, ts'))
    (h1 : Ev (.level (n - 1)) ts' (b, rest)) (h2 : Ev (.chain n (.bin op a b)) rest r) : Ev (.chain n a) ts r :=
  .step2 h1 h2 fun f e1 e2 => by
    simp only [parse, h]
    rw [e1]; exact e2

theorem Ev.unary {s : List Char} {ts rest : List Tok} {a : C} (hs : s ∈ prefixOps) (h : Ev (.level 1) ts (a, rest)) :
    Ev (.level 1) (.sym s :: ts) (.un s a, rest) :=
  .step1 h fun f e => by
    simp only [parse, if_pos hs]
    rw [e]; rfl

theorem Ev.cast {ts rest rest' : List Tok} {ty : List (List Char)} {a : C} (hne : ty ≠ [])
    (ht : typeWordsOf ts = (ty, .sym [')'] :: rest)) (h : Ev (.level 1) rest (a, rest')) :
    Ev (.level 1) (.sym ['('] :: ts) (.cast ty a, rest') :=
  .step1 h fun f e => by
    have h1 : (['('] : List Char) ∉ prefixOps := by decide
    simp only [parse, if_neg h1, ht, ne_eq, hne, not_false_eq_true, and_self, if_true]
    rw [e]; rfl

theorem Ev.word1 {w : List Char} {ts : List Tok} {r} (h : Ev (.level 0) (.word w :: ts) r) : Ev (.level 1) (.word w :: ts) r :=
  .step1 h fun f e => by simp only [parse]; exact e

theorem Ev.paren1 {ts : List Tok} {r} (ht : (typeWordsOf ts).1 = []) (h : Ev (.level 0) (.sym ['('] :: ts) r) :
    Ev (.level 1) (.sym ['('] :: ts) r :=
  .step1 h fun f e => by
    have h1 : (['('] : List Char) ∉ prefixOps := by decide
    simp only [parse, if_neg h1, ht, ne_eq, not_true, and_false, if_false]
    exact e

theorem Ev.paren0 {ts rest : List Tok} {a : C} {r} (h1 : Ev (.level 9) ts (a, .sym [')'] :: rest)) (h2 : Ev (.post a) rest r) :
    Ev (.level 0) (.sym ['('] :: ts) r :=
  .step2 h1 h2 fun f e1 e2 => by
    simp only [parse, if_true]
    rw [e1]
    simp only [Option.bind_some, if_true]
    exact e2

theorem Ev.word0 {c : Char} {cs : List Char} {ts : List Tok} {r} (ht : isType (c :: cs) = false) (hk : isKeyword (c :: cs) = false)
    (h : Ev (.post (if isDigit c then .num (c :: cs) else .id (c :: cs))) ts r) : Ev (.level 0) (.word (c :: cs) :: ts) r :=
  .step1 h fun f e => by
    simp only [parse, ht, hk, Bool.or_self, Bool.false_eq_true, if_false]
    exact e

/-- What does not continue a postfix expression. -/
def postEnd : List Tok → Prop
  | .sym s :: _ => s ≠ ['['] ∧ s ≠ ['('] ∧ s ≠ ['+', '+'] ∧ s ≠ ['-', '-']
  | .word _ :: _ => True
  | [] => True

theorem Ev.post_end {ts : List Tok} {a : C} (h : postEnd ts) : Ev (.post a) ts (a, ts) :=
  .of_step ⟨0, fun f _ => by
    match ts, h with
    | .sym s :: _, h => simp only [parse, h.1, h.2.1, h.2.2.1, h.2.2.2, or_self, if_false]
    | .word _ :: _, _ => simp only [parse]
    | [], _ => simp only [parse]⟩

theorem Ev.index {ts rest : List Tok} {a i : C} {r} (h1 : Ev (.level 9) ts (i, .sym [']'] :: rest)) (h2 : Ev (.post (.index a i)) rest r) :
    Ev (.post a) (.sym ['['] :: ts) r :=
  .step2 h1 h2 fun f e1 e2 => by
    simp only [parse, if_true]
    rw [e1]
    simp only [Option.bind_some, if_true]
    exact e2

theorem Ev.call0 {ts : List Tok} {a : C} {r} (h : Ev (.post (.call a [])) ts r) : Ev (.post a) (.sym ['('] :: .sym [')'] :: ts) r :=
  .step1 h fun f e => by
    have h1 : (['('] : List Char) ≠ ['['] := by decide
    simp only [parse, if_neg h1, if_true, List.head?_cons, List.tail_cons]
    exact e

theorem Ev.callArgs {ts : List Tok} {a : C} {r} (hne : ts.head? ≠ some (.sym [')'])) (h : Ev (.args a []) ts r) :
    Ev (.post a) (.sym ['('] :: ts) r :=
  .step1 h fun f e => by
    have h1 : (['('] : List Char) ≠ ['['] := by decide
    simp only [parse, if_neg h1, if_true, if_neg hne]
    exact e

theorem Ev.args_last {ts rest : List Tok} {g a : C} {done : List C} {r} (h1 : Ev (.level 9) ts (a, .sym [')'] :: rest))
    (h2 : Ev (.post (.call g (done ++ [a]))) rest r) : Ev (.args g done) ts r :=
  .step2 h1 h2 fun f e1 e2 => by
    simp only [parse]
    rw [e1]
    simp only [Option.bind_some, if_true]
    exact e2

theorem Ev.args_more {ts rest : List Tok} {g a : C} {done : List C} {r} (h1 : Ev (.level 9) ts (a, .sym [','] :: rest))
    (h2 : Ev (.args g (done ++ [a])) rest r) : Ev (.args g done) ts r :=
  .step2 h1 h2 fun f e1 e2 => by
    have h : ([','] : List Char) ≠ [')'] := by decide
    simp only [parse]
    rw [e1]
    simp only [Option.bind_some, if_neg h, if_true]
    exact e2

/-! ### Operators -/

theorem opAt_text (n : Nat) (op : BOp) (ts : List Tok) : opAt n (.sym op.text :: ts) = if op.level = n then some (op, ts) else none := by
  by_cases h : op.level = n
  · subst h
    rw [if_pos rfl]
    cases op <;> rfl
  · rw [if_neg h]
    have : ∀ o ∈ allOps, o.text = op.text → o = op := by cases op <;> decide
    simp only [opAt, Option.map_eq_none_iff, List.find?_eq_none, Bool.and_eq_true, beq_iff_eq]
    intro o ho ⟨h1, h2⟩
    exact h ((this o ho h1) ▸ h2)

/-- The tokens do not continue an expression of level `n`. -/
def Stop (n : Nat) (ts : List Tok) : Prop := (∀ m, m ≤ n → opAt m ts = none) ∧ postEnd ts

theorem Stop.mono {n m : Nat} {ts : List Tok} (h : Stop n ts) (hm : m ≤ n) : Stop m ts := ⟨fun k hk => h.1 k (by omega), h.2⟩

theorem Stop.sym {c : Char} (hc : c = ')' ∨ c = ']' ∨ c = ',' ∨ c = ';' ∨ c = ':') (n : Nat) (ts : List Tok) : Stop n (.sym [c] :: ts) := by
  refine ⟨fun m _ => ?_, ?_⟩
  · have : ∀ o ∈ allOps, o.text ≠ [c] := by rcases hc with rfl | rfl | rfl | rfl | rfl <;> decide
    simp only [opAt, Option.map_eq_none_iff, List.find?_eq_none, Bool.and_eq_true, beq_iff_eq]
    intro o ho h
    exact this o ho h.1
  · rcases hc with rfl | rfl | rfl | rfl | rfl <;> exact ⟨by decide, by decide, by decide, by decide⟩

theorem Stop.nil (n : Nat) : Stop n [] := ⟨fun _ _ => rfl, trivial⟩

theorem Stop.op {n : Nat} {op : BOp} (h : n < op.level) (ts : List Tok) : Stop n (.sym op.text :: ts) := by
  refine ⟨fun m hm => ?_, ?_⟩
  · rw [opAt_text, if_neg (by omega)]
  · cases op <;> exact ⟨by decide, by decide, by decide, by decide⟩

/-- From a level to the levels above. -/
theorem Ev.climb {k n : Nat} {ts rest : List Tok} {a : C} (h : Ev (.level k) ts (a, rest)) (hk : 1 ≤ k) (hn : k ≤ n) (hs : Stop n rest) :
    Ev (.level n) ts (a, rest) := by
  induction n with
  | zero => omega
  | succ n ih =>
    by_cases hkn : k = n + 1
    · exact hkn ▸ h
    · obtain ⟨m, rfl⟩ : ∃ m, n = m + 1 := ⟨n - 1, by omega⟩
      exact .level (ih (by omega) (hs.mono (by omega))) (.chain_end (hs.1 _ (Nat.le_refl _)))

theorem typeWordsOf_typeWords (ty : List (List Char)) (hne : ty ≠ []) (h : ∀ w ∈ ty, isType w = true) (rest : List Tok) :
    typeWordsOf (toks (typeWords ty) ++ .sym [')'] :: rest) = (ty, .sym [')'] :: rest) := by
  induction ty with
  | nil => exact absurd rfl hne
  | cons w ws ih =>
    have hw := h w List.mem_cons_self
    cases ws with
    | nil => simp [typeWords, typeWordsOf, hw]
    | cons w' ws =>
      have := ih (by simp) fun z hz => h z (List.mem_cons_of_mem _ hz)
      show typeWordsOf (.word w :: (toks (typeWords (w' :: ws)) ++ .sym [')'] :: rest)) = _
      simp only [typeWordsOf, hw, if_true, this]

/-- How the tokens of an operand begin: not with a type name, nor with a closing parenthesis. -/
def opens (ts : List Tok) : Prop := (typeWordsOf ts).1 = [] ∧ ts.head? ≠ some (.sym [')'])

theorem opens_name {w : List Char} (h : isType w = false) (ts : List Tok) : opens (.word w :: ts) := by
  simp [opens, typeWordsOf, h]

theorem opens_sym {s : List Char} (h : s ≠ [')']) (ts : List Tok) : opens (.sym s :: ts) := by
  simp [opens, typeWordsOf, h]

theorem name_type {w : List Char} (h : nameOK w = true) : isType w = false := by
  cases w with
  | nil => cases h
  | cons c cs => simp only [nameOK, Bool.and_eq_true, Bool.not_eq_true'] at h; exact h.1.2

theorem name_keyword {w : List Char} (h : nameOK w = true) : isKeyword w = false := by
  cases w with
  | nil => cases h
  | cons c cs => simp only [nameOK, Bool.and_eq_true, Bool.not_eq_true'] at h; exact h.2

theorem isKeyword_chars {w : List Char} (h : isKeyword w = true) : ∃ c cs, w = c :: cs ∧ isDigit c = false := by
  simp only [isKeyword, List.any_eq_true, beq_iff_eq] at h
  obtain ⟨k, hk, rfl⟩ := h
  have : ∀ k ∈ keywords, (match k.toList with | c :: _ => isDigit c | [] => true) = false := by decide
  have := this k hk
  cases hc : k.toList with
  | nil => rw [hc] at this; cases this
  | cons c cs => rw [hc] at this; exact ⟨c, cs, rfl, this⟩

theorem num_keyword {w : List Char} (h : numOK w = true) : isKeyword w = false := by
  cases hc : isKeyword w with
  | false => rfl
  | true =>
    obtain ⟨c, cs, rfl, hd⟩ := isKeyword_chars hc
    simp only [numOK, Bool.and_eq_true] at h
    rw [hd] at h
    cases h.1

theorem num_type {w : List Char} (h : numOK w = true) : isType w = false := by
  cases hc : isType w with
  | false => rfl
  | true =>
    obtain ⟨_, _, c, cs, rfl, hd⟩ := isType_chars hc
    simp only [numOK, Bool.and_eq_true] at h
    rw [hd] at h
    cases h.1

/-- The level of the printed text of an expression. -/
def lvl : E .expr → Nat → Nat
  | .bin op _ _, p => if needsParens op.prec p then 1 else op.level
  | _, _ => 1

theorem lvl_pos (e : E .expr) (p : Nat) : 1 ≤ lvl e p := by
  cases e with
  | bin op a b => simp only [lvl]; split; exact Nat.le_refl _; cases op <;> decide
  | _ => exact Nat.le_refl 1

/-- An operand is printed at a lower level than the operator. -/
theorem lvl_operand (op : BOp) (e : E .expr) : lvl e op.prec + 1 ≤ op.level := by
  cases e with
  | bin o a b =>
    simp only [lvl]
    cases op <;> cases o <;> decide
  | _ => exact (by cases op <;> decide : 1 + 1 ≤ op.level)

/-- A name before something that continues the expression. -/
theorem Ev.name {w : List Char} {ts : List Tok} {r} (h : nameOK w = true) (hp : Ev (.post (.id w)) ts r) : Ev (.level 1) (.word w :: ts) r := by
  cases w with
  | nil => cases h
  | cons c cs =>
    have hd : isDigit c = false := by
      simp only [nameOK, Bool.and_eq_true, Bool.not_eq_true'] at h
      exact h.1.1.1
    refine .word1 (.word0 (name_type h) (name_keyword h) ?_)
    rw [hd]; exact hp

theorem lit_ev (n : Bool) {t : List Char} (h : (numOK t || nameOK t) = true) {ts : List Tok} (hs : postEnd ts) :
    Ev (.level 1) (toks (signed n t) ++ ts) (literal n t, ts) := by
  have h0 : Ev (.level 1) (.word t :: ts) (literal false t, ts) := by
    cases t with
    | nil => cases h
    | cons c cs =>
      refine .word1 (.word0 ?_ ?_ ?_)
      · rcases Bool.or_eq_true_iff.1 h with h | h
        · exact num_type h
        · exact name_type h
      · rcases Bool.or_eq_true_iff.1 h with h | h
        · exact num_keyword h
        · exact name_keyword h
      · exact .post_end hs
  cases n with
  | false => exact h0
  | true => exact .unary (by decide) h0

theorem parses {s : Sort'} (e : E s) : ∀ (p : Nat) (rest : List Tok), WF e → match s, e with
    | .expr, e => opens (toks (pr e p).1 ++ rest) ∧ ∀ n, lvl e p ≤ n → Stop n rest → Ev (.level n) (toks (pr e p).1 ++ rest) (denotes e, rest)
    | .args, e => ∀ a as, e = .cons a as → opens (toks (pr e p).1 ++ rest) ∧ ∀ g done r, Ev (.post (.call g (List.append (α := C) done (denotes e)))) rest r →
        Ev (.args g done) (toks (pr e p).1 ++ .sym [')'] :: rest) r := by
  have call1 : ∀ (w : List Char) (a : E .expr) (p : Nat) (rest : List Tok), nameOK w = true →
      (∀ n ts, lvl a p ≤ n → Stop n ts → opens (toks (pr a p).1 ++ ts) ∧ Ev (.level n) (toks (pr a p).1 ++ ts) (denotes a, ts)) →
      postEnd rest →
      Ev (.level 1) (.word w :: .sym ['('] :: (toks (pr a p).1 ++ .sym [')'] :: rest)) (.call (.id w) [denotes a], rest) := by
    intro w a p rest hw ih hr
    have h9 : lvl a p ≤ 9 := by
      cases a with
      | bin op _ _ => simp only [lvl]; split; decide; cases op <;> decide
      | _ => exact (by decide : 1 ≤ 9)
    obtain ⟨h1, h2⟩ := ih 9 (.sym [')'] :: rest) h9 (.sym (by simp) _ _)
    exact .name hw (.callArgs h1.2 (.args_last h2 (.post_end hr)))
  have h9 : ∀ (a : E .expr) (p : Nat), lvl a p ≤ 9 := by
    intro a p
    cases a with
    | bin op _ _ => simp only [lvl]; split; decide; cases op <;> decide
    | _ => exact (by decide : 1 ≤ 9)
  induction e with
  | lit n t =>
    intro p rest hw
    refine ⟨?_, fun m hm hs => (lit_ev n hw hs.2).climb (Nat.le_refl 1) hm hs⟩
    cases n with
    | true => exact opens_sym (by decide) _
    | false =>
      have hw : (numOK t || nameOK t) = true := hw
      rcases Bool.or_eq_true_iff.1 hw with h | h
      · exact opens_name (num_type h) _
      · exact opens_name (name_type h) _
  | cplx => intro p rest hw; exact hw.elim
  | var x =>
    intro p rest hw
    exact ⟨opens_name (name_type hw) _, fun m hm hs => (Ev.name hw (.post_end hs.2)).climb (Nat.le_refl 1) hm hs⟩
  | neg b a ih =>
    intro p rest hw
    have hb : (if b then ['!'] else ['-'] : List Char) ∈ prefixOps ∧ (if b then ['!'] else ['-'] : List Char) ≠ [')'] := by cases b <;> decide
    refine ⟨opens_sym hb.2 _, fun m hm hs => ?_⟩
    have h3 : lvl a 3 ≤ 1 := by
      cases a with
      | bin op _ _ => simp only [lvl]; cases op <;> decide
      | _ => exact Nat.le_refl 1
    have := (ih 3 rest hw.1).2 1 h3 (hs.mono hm)
    exact (Ev.unary hb.1 this).climb (Nat.le_refl 1) hm hs
  | bin op a b iha ihb =>
    intro p rest hw
    obtain ⟨k, hk⟩ : ∃ k, op.level = k + 2 := by cases op <;> exact ⟨_, rfl⟩
    have hbody : ∀ ts, Stop op.level ts → Ev (.level op.level) (toks (pr a op.prec).1 ++ .sym op.text :: (toks (pr b op.prec).1 ++ ts))
        (.bin op (denotes a) (denotes b), ts) := by
      intro ts hs
      have hla := lvl_operand op a
      have hlb := lvl_operand op b
      have h1 := (iha op.prec (.sym op.text :: (toks (pr b op.prec).1 ++ ts)) hw.1).2 (k + 1) (by omega) (.op (by omega) _)
      have h2 := (ihb op.prec ts hw.2).2 (k + 1) (by omega) (hs.mono (by omega))
      rw [hk] at hs ⊢
      refine .level h1 (.chain_op (ts' := toks (pr b op.prec).1 ++ ts) ?_ h2 (.chain_end (hs.1 _ (Nat.le_refl _))))
      rw [opAt_text, if_pos hk]
    have ho : ∀ ts, opens (toks (pr a op.prec).1 ++ ts) := fun ts => (iha op.prec ts hw.1).1
    simp only [pr, lvl]
    by_cases hn : needsParens op.prec p = true
    · rw [if_pos hn, if_pos hn]
      simp only [toks_append, toks_sp, toks_sym, toks_nil, List.append_assoc, List.cons_append, List.nil_append]
      refine ⟨opens_sym (by decide) _, fun m hm hs => ?_⟩
      have h1 := (hbody (.sym [')'] :: rest) (.sym (by simp) _ _)).climb (n := 9) (by omega) (by cases op <;> decide) (.sym (by simp) _ _)
      exact (Ev.paren1 (ho _).1 (.paren0 h1 (.post_end hs.2))).climb (Nat.le_refl 1) hm hs
    · rw [if_neg hn, if_neg hn]
      simp only [toks_append, toks_sp, toks_sym, toks_nil, List.append_assoc, List.cons_append, List.nil_append]
      exact ⟨ho _, fun m hm hs => (hbody rest (hs.mono hm)).climb (by omega) hm hs⟩
  | cast ty a ih =>
    intro p rest hw
    simp only [pr, toks_append, toks_sp, toks_sym, toks_nil, List.append_assoc, List.cons_append, List.nil_append]
    refine ⟨opens_sym (by decide) _, fun m hm hs => ?_⟩
    have h3 : lvl a 3 ≤ 1 := by
      cases a with
      | bin op _ _ => simp only [lvl]; cases op <;> decide
      | _ => exact Nat.le_refl 1
    have := (ih 3 rest hw.2.2).2 1 h3 (hs.mono hm)
    exact (Ev.cast hw.1 (typeWordsOf_typeWords ty hw.1 hw.2.1 _) this).climb (Nat.le_refl 1) hm hs
  | call f as ih =>
    intro p rest hw
    simp only [pr, toks_append, toks_sp, toks_sym, toks_word, toks_nil, List.append_assoc, List.cons_append, List.nil_append]
    refine ⟨opens_name (name_type hw.1) _, fun m hm hs => Ev.climb (k := 1) ?_ (Nat.le_refl 1) hm hs⟩
    refine .name hw.1 ?_
    cases as with
    | nil => exact .call0 (.post_end hs.2)
    | cons a as =>
      have h1 := ih 2 (.sym [')'] :: rest) hw.2 a as rfl
      have h2 := (ih 2 rest hw.2 a as rfl).2 (.id f) [] _ (.post_end hs.2)
      exact .callArgs h1.1.2 h2
  | sqrt a ih =>
    intro p rest hw
    simp only [pr, toks_append, toks_sp, toks_sym, toks_word, toks_nil, List.append_assoc, List.cons_append, List.nil_append]
    refine ⟨opens_name (by decide) _, fun m hm hs => Ev.climb (k := 1) ?_ (Nat.le_refl 1) hm hs⟩
    exact call1 _ a p rest (by decide) (fun n ts hn hs => ⟨(ih p ts hw).1, (ih p ts hw).2 n hn hs⟩) hs.2
  | malloc a ih =>
    intro p rest hw
    simp only [pr, toks_append, toks_sp, toks_sym, toks_word, toks_nil, List.append_assoc, List.cons_append, List.nil_append]
    refine ⟨opens_name (by decide) _, fun m hm hs => Ev.climb (k := 1) ?_ (Nat.le_refl 1) hm hs⟩
    exact call1 _ a 20 rest (by decide) (fun n ts hn hs => ⟨(ih 20 ts hw).1, (ih 20 ts hw).2 n hn hs⟩) hs.2
  | minmax f a b iha ihb =>
    intro p rest hw
    simp only [pr, toks_append, toks_sp, toks_sym, toks_word, toks_nil, List.append_assoc, List.cons_append, List.nil_append]
    refine ⟨opens_name (name_type hw.1) _, fun m hm hs => Ev.climb (k := 1) ?_ (Nat.le_refl 1) hm hs⟩
    have ha := iha p (.sym [','] :: (toks (pr b (pr a p).2).1 ++ .sym [')'] :: rest)) hw.2.1
    have hb := ihb (pr a p).2 (.sym [')'] :: rest) hw.2.2
    exact .name hw.1 (.callArgs ha.1.2 (.args_more (ha.2 9 (h9 _ _) (.sym (by simp) _ _))
      (.args_last (hb.2 9 (h9 _ _) (.sym (by simp) _ _)) (.post_end hs.2))))
  | load x a ih =>
    intro p rest hw
    simp only [pr, toks_append, toks_sp, toks_sym, toks_word, toks_nil, List.append_assoc, List.cons_append, List.nil_append]
    refine ⟨opens_name (name_type hw.1) _, fun m hm hs => Ev.climb (k := 1) ?_ (Nat.le_refl 1) hm hs⟩
    exact .name hw.1 (.index ((ih 2 (.sym [']'] :: rest) hw.2).2 9 (h9 _ _) (.sym (by simp) _ _)) (.post_end hs.2))
  | nil => intro p rest _ a as h; cases h
  | cons a as iha ihas =>
    intro p rest hw a' as' h
    cases h
    cases as with
    | nil =>
      refine ⟨(iha p rest hw.1).1, fun g done r hr => ?_⟩
      exact .args_last ((iha p (.sym [')'] :: rest) hw.1).2 9 (h9 _ _) (.sym (by simp) _ _)) hr
    | cons b bs =>
      simp only [pr, toks_append, toks_sp, toks_sym, toks_word, toks_nil, List.append_assoc, List.cons_append, List.nil_append]
      refine ⟨(iha p _ hw.1).1, fun g done r hr => ?_⟩
      refine .args_more ((iha p _ hw.1).2 9 (h9 _ _) (.sym (by simp) _ _)) ?_
      refine (ihas (pr a p).2 rest hw.2 b bs rfl).2 g (List.append (α := C) done [denotes a]) r ?_
      have he : List.append (α := C) (List.append (α := C) done [denotes a]) (denotes (.cons b bs)) =
          List.append (α := C) done (denotes (.cons a (.cons b bs))) := List.append_assoc _ _ _
      rw [he]
      exact hr

end Verif.CPrint
