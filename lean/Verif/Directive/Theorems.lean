import Verif.Directive.Lemmas
/-!
# C92 Scheduling directives of the command line do what the help says
-/
namespace Verif.Directive
open Verif.IndexText Verif.Schedule

/-- A directive that means an operation is that operation. -/
theorem directive_decoded (v : View) (d : List Name) (o : Op) (h : Means v d o) : decode v d = .ok (some o) := by
  cases h with
  | pos hi hf =>
    refine (decode_command v .pos _).trans ?_
    show posAt v _ _ (findAccess _ _ 0) = _
    rw [findAccess_first hf, Nat.zero_add]
    show (findVar v _).bind _ = _
    rw [findVar_mem hi]; rfl
  | fuse hi hj =>
    refine (decode_command v .fuse _).trans ?_
    show (findVar v _).bind _ = _
    rw [findVar_mem hi]
    show (findVar v _).bind _ = _
    rw [findVar_mem hj]; rfl
  | split hi hn =>
    refine (decode_command v .split _).trans ?_
    show (scanZu _).bind _ = _
    rw [scanZu_numeral hn]
    show (findVar v _).bind _ = _
    rw [findVar_mem hi]; rfl
  | divide hi hn =>
    refine (decode_command v .divide _).trans ?_
    show (scanZu _).bind _ = _
    rw [scanZu_numeral hn]
    show (findVar v _).bind _ = _
    rw [findVar_mem hi]; rfl
  | reorder hl hv =>
    refine (decode_command v .reorder _).trans ?_
    show (if _ > 1 then _ else _) = _
    rw [if_pos (by omega), findVars_mem hv]; rfl
  | mergeby s hi =>
    refine (decode_command v .mergeby _).trans ?_
    show (lookup mergeTable _).bind _ = _
    rw [lookup_merge]
    show (findVar v _).bind _ = _
    rw [findVar_mem hi]; rfl
  | bound t hi hn =>
    refine (decode_command v .bound _).trans ?_
    show (scanZu _).bind _ = _
    rw [scanZu_numeral hn]
    show (lookup boundTable _).bind _ = _
    rw [lookup_bound]
    show (findVar v _).bind _ = _
    rw [findVar_mem hi]; rfl
  | unroll hi hn =>
    refine (decode_command v .unroll _).trans ?_
    show (scanZu _).bind _ = _
    rw [scanZu_numeral hn]
    show (findVar v _).bind _ = _
    rw [findVar_mem hi]; rfl
  | parallelize u r hi =>
    refine (decode_command v .parallelize _).trans ?_
    show (lookup unitTable _).bind _ = _
    rw [lookup_unit]
    show (lookup raceTable _).bind _ = _
    rw [lookup_race]
    show (findVar v _).bind _ = _
    rw [findVar_mem hi]; rfl
  | assemble s ht =>
    refine (decode_command v .assemble _).trans ?_
    show (if _ ∈ _ then _ else _) = _
    rw [if_pos ht, lookup_asm]; rfl
  | assembleSep s b ht =>
    refine (decode_command v .assemble _).trans ?_
    show (if _ ∈ _ then _ else _) = _
    rw [if_pos ht, lookup_asm]
    show (lookup boolTable _).bind _ = _
    rw [lookup_bool]; rfl

/-- What `precompute` passes on when the variables are known: a subexpression with the text of the parameter if there
is one. -/
theorem precompute_found (v : View) (hl : Leaves v.exprs) (t : Name) :
    (∀ e, visitAll (eraseSpaces t) v.exprs none = some e → Occurs e v.exprs ∧ Hit (noSpaces t) e) ∧
      (visitAll (eraseSpaces t) v.exprs none = none → ∀ e, Occurs e v.exprs → ¬ Hit (noSpaces t) e) := by
  rw [eraseSpaces_eq]
  refine ⟨?_, fun h => (visitAll_none hl h).2⟩
  intro e h
  rcases visitAll_sound h with h | h
  · cases h
  · exact h

theorem dimOf_eq (v : View) (x : Name) : dimOf v x = v.dim x := by
  unfold dimOf View.dim
  cases v.domain x <;> rfl

theorem precomputeAs_eq {v : View} (hl : Leaves v.exprs) {t p q w : Name} {origs pres : List Name} {e : Expr} (hp : Lists p origs) (hq : Lists q pres)
    (hm : ∀ x ∈ origs, x ∈ v.vars) (ho : Occurs e v.exprs) (hh : Hit (noSpaces t) e) (hu : ∀ e', Occurs e' v.exprs → Hit (noSpaces t) e' → e' = e) :
    precomputeAs v t p q w = .ok (some (.precompute (some e) origs pres w .float64 (origs.map v.dim))) := by
  have hf : visitAll (eraseSpaces t) v.exprs none = some e := by
    obtain ⟨h1, h2⟩ := precompute_found v hl t
    cases hx : visitAll (eraseSpaces t) v.exprs none with
    | none => exact absurd hh (h2 hx e ho)
    | some e' => rw [hu e' (h1 e' hx).1 (h1 e' hx).2]
  unfold precomputeAs
  rw [varList_lists hp]
  show (varList q).bind _ = _
  rw [varList_lists hq]
  show (findVars v origs).bind _ = _
  rw [findVars_mem hm]
  show Res.ok _ = _
  rw [hf, show dimOf v = v.dim from funext (dimOf_eq v)]

/-- The same for `precompute`. -/
theorem precompute_decoded (v : View) (hl : Leaves v.exprs) (d : List Name) (o : Op) (h : MeansPrecompute v d o) : decode v d = .ok (some o) := by
  cases h with
  | unnamed hp hq hm ho hh hu => exact (decode_command v .precompute _).trans (precomputeAs_eq hl hp hq hm ho hh hu)
  | named hp hq hm ho hh hu => exact (decode_command v .precompute _).trans (precomputeAs_eq hl hp hq hm ho hh hu)

theorem branch_means {v : View} {c : Cmd} {ps : List Name} {o : Op} (ht : ∀ p ∈ ps, Tidy p) (hc : c ≠ .precompute)
    (h : branch c v ps = .ok (some o)) : Means v (c.text.toList :: ps) o := by
  cases c with
  | pos =>
    match ps, h with
    | [i, ipos, t], h =>
      replace h : posAt v i ipos (findAccess t v.args 0) = .ok (some o) := h
      cases hf : findAccess t v.args 0 with
      | none => rw [hf] at h; cases h
      | some r =>
        rw [hf] at h
        obtain ⟨y, hy, h_1⟩ := bind_ok h
        obtain ⟨rfl, hm⟩ := findVar_ok hy
        obtain ⟨k, hr, hk⟩ := findAccess_some hf
        cases h_1
        have e : r = k := by omega
        subst e
        exact .pos hm hk
  | fuse =>
    match ps, h with
    | [i, j, f], h =>
      obtain ⟨y, hy, h_2⟩ := bind_ok h
      obtain ⟨z, hz, h_3⟩ := bind_ok h_2
      obtain ⟨rfl, hm⟩ := findVar_ok hy
      obtain ⟨rfl, hm'⟩ := findVar_ok hz
      cases h_3
      exact .fuse hm hm'
  | split =>
    match ps, h with
    | [i, i1, i2, p], h =>
      obtain ⟨n, hn, h_4⟩ := bind_ok h
      obtain ⟨y, hy, h_5⟩ := bind_ok h_4
      obtain ⟨rfl, hm⟩ := findVar_ok hy
      cases h_5
      exact .split hm (scan_ok (ht p (by simp)) hn)
  | divide =>
    match ps, h with
    | [i, i1, i2, p], h =>
      obtain ⟨n, hn, h_6⟩ := bind_ok h
      obtain ⟨y, hy, h_7⟩ := bind_ok h_6
      obtain ⟨rfl, hm⟩ := findVar_ok hy
      cases h_7
      exact .divide hm (scan_ok (ht p (by simp)) hn)
  | precompute => exact absurd rfl hc
  | reorder =>
    replace h : (if ps.length > 1 then (findVars v ps).bind fun vs => .ok (some (.reorder vs)) else .error) = Res.ok (some o) := h
    split at h
    · rename_i hl
      obtain ⟨ys, hy, h_8⟩ := bind_ok h
      obtain ⟨rfl, hm⟩ := findVars_ok hy
      cases h_8
      exact .reorder hl hm
    · cases h
  | mergeby =>
    match ps, h with
    | [i, s], h =>
      obtain ⟨m, hs, h_9⟩ := bind_ok h
      obtain ⟨y, hy, h_10⟩ := bind_ok h_9
      obtain ⟨rfl, hm⟩ := findVar_ok hy
      have := merge_text hs
      subst this
      cases h_10
      exact .mergeby m hm
  | bound =>
    match ps, h with
    | [i, i1, p, t], h =>
      obtain ⟨n, hn, h_11⟩ := bind_ok h
      obtain ⟨b, hb, h_12⟩ := bind_ok h_11
      obtain ⟨y, hy, h_13⟩ := bind_ok h_12
      obtain ⟨rfl, hm⟩ := findVar_ok hy
      have := bound_text hb
      subst this
      cases h_13
      exact .bound b hm (scan_ok (ht p (by simp)) hn)
  | unroll =>
    match ps, h with
    | [i, p], h =>
      obtain ⟨n, hn, h_14⟩ := bind_ok h
      obtain ⟨y, hy, h_15⟩ := bind_ok h_14
      obtain ⟨rfl, hm⟩ := findVar_ok hy
      cases h_15
      exact .unroll hm (scan_ok (ht p (by simp)) hn)
  | parallelize =>
    match ps, h with
    | [i, u, r], h =>
      obtain ⟨a, ha, h_16⟩ := bind_ok h
      obtain ⟨b, hb, h_17⟩ := bind_ok h_16
      obtain ⟨y, hy, h_18⟩ := bind_ok h_17
      obtain ⟨rfl, hm⟩ := findVar_ok hy
      have := unit_text ha
      subst this
      have := race_text hb
      subst this
      cases h_18
      exact .parallelize a b hm
  | assemble =>
    match ps, h with
    | [t, s], h =>
      replace h : (if t ∈ v.results then (lookup asmTable s).bind fun s => (lookup boolTable "false".toList).bind fun b => .ok (some (.assemble t s b))
        else .error) = Res.ok (some o) := h
      split at h
      · rename_i hm
        obtain ⟨a, ha, h_19⟩ := bind_ok h
        obtain ⟨b, hb, h_20⟩ := bind_ok h_19
        have := asm_text ha
        subst this
        have hb' : lookup boolTable "false".toList = .ok false := lookup_bool false
        rw [hb'] at hb
        cases hb
        cases h_20
        exact .assemble a hm
      · cases h
    | [t, s, b], h =>
      replace h : (if t ∈ v.results then (lookup asmTable s).bind fun s => (lookup boolTable b).bind fun b => .ok (some (.assemble t s b))
        else .error) = Res.ok (some o) := h
      split at h
      · rename_i hm
        obtain ⟨a, ha, h_21⟩ := bind_ok h
        obtain ⟨c, hc, h_22⟩ := bind_ok h_21
        have := asm_text ha
        subst this
        have := bool_text hc
        subst this
        cases h_22
        exact .assembleSep a c hm
      · cases h


/-- A directive other than `precompute` that becomes an operation means that operation, when its parameters are tidy:
numbers of digits only. In particular the number of parameters is right, the names of strategies, types and units are
known and the variables are variables of the statement. Missing: parameters such as `4x` and `-1`, which are taken for
numbers (`number_suffix_fails`, `number_sign_fails`). -/
theorem decoded_means_partial (v : View) (d : List Name) (o : Op) (ht : ∀ p ∈ d, Tidy p) (hp : d.head? ≠ some "precompute".toList)
    (h : decode v d = .ok (some o)) : Means v d o := by
  cases d with
  | nil => cases h
  | cons cmd ps =>
    obtain ⟨c, hc, h1⟩ := bind_ok (r := lookup commands cmd) (f := fun c => branch c v ps) h
    have hcmd := command_text hc
    subst hcmd
    exact branch_means (fun p hp => ht p (by simp [hp])) (fun e => by subst e; exact hp rfl) h1

theorem setsGpu_iff (o : Op) : setsGpu o = true ↔ ∃ i u r, o = .parallelize i u r ∧ u.gpu := by
  cases o with
  | parallelize i u r =>
    constructor
    · intro h
      refine ⟨i, u, r, rfl, ?_⟩
      cases u <;> first | trivial | cases h
    · rintro ⟨i', u', r', e, hg⟩
      cases e
      cases u <;> first | rfl | cases hg
  | _ => simp [setsGpu]

theorem anyGpu_cons (o : Op) (os : List Op) : AnyGpu (o :: os) ↔ setsGpu o = true ∨ AnyGpu os := by
  rw [setsGpu_iff]
  unfold AnyGpu
  constructor
  · rintro ⟨i, u, r, hm, hg⟩
    rcases List.mem_cons.mp hm with e | hm
    · exact .inl ⟨i, u, r, e.symm, hg⟩
    · exact .inr ⟨i, u, r, hm, hg⟩
  · rintro (⟨i, u, r, rfl, hg⟩ | ⟨i, u, r, hm, hg⟩)
    · exact ⟨i, u, r, by simp, hg⟩
    · exact ⟨i, u, r, by simp [hm], hg⟩

theorem run_mean {σ : Type} (view : σ → View) (apply : σ → Op → Option σ) : ∀ {s : σ} {ds : List (List Name)} {os : List Op},
    Mean view apply s ds os → ∀ g, ∃ s' g', run view apply s g ds = .ok (s', g') ∧ applyAll apply s os = some s' ∧ (g' = true ↔ g = true ∨ AnyGpu os) := by
  intro s ds os h
  induction h with
  | nil => exact fun g => ⟨_, g, rfl, rfl, by simp [AnyGpu]⟩
  | @cons s s1 d ds o os hm ha _ ih =>
    intro g
    obtain ⟨s', g', hr, hall, hg⟩ := ih (g || setsGpu o)
    refine ⟨s', g', ?_, ?_, ?_⟩
    · have hd : decode (view s) d = .ok (some o) := by
        rcases hm with hm | ⟨hl, hm⟩
        · exact directive_decoded _ _ _ hm
        · exact precompute_decoded _ hl _ _ hm
      unfold run
      rw [hd]
      show (match apply s o with | none => _ | some s' => _) = _
      rw [ha]
      exact hr
    · show (apply s o).bind _ = _
      rw [ha]; exact hall
    · rw [hg, anyGpu_cons]; simp [or_assoc]

/-- Directives are carried out one after the other, each on the statement that the ones before it have made, and code
for a GPU is asked for exactly when one of them parallelizes over blocks, warps or threads of a GPU. -/
theorem directives_in_order {σ : Type} (view : σ → View) (apply : σ → Op → Option σ) (s : σ) (ds : List (List Name)) (os : List Op)
    (h : Mean view apply s ds os) :
    ∃ s' g, run view apply s false ds = .ok (s', g) ∧ applyAll apply s os = some s' ∧ (g = true ↔ AnyGpu os) := by
  obtain ⟨s', g, h1, h2, h3⟩ := run_mean view apply h false
  exact ⟨s', g, h1, h2, by simpa using h3⟩

theorem directives_parsed : ∀ {texts : List Name} {items : List (List (List Name))}, texts.length = items.length →
    (∀ p ∈ texts.zip items, p.2 ≠ [] ∧ (∀ i ∈ p.2, ItemOK i) ∧ TextOK p.1 ∧ p.1.filter (fun c => !isSpace c) = scheduleText p.2) →
    directives texts = some items.flatten
  | [], [], _, _ => rfl
  | t :: ts, i :: is, hlen, h => by
    obtain ⟨h0, h1, h2, h3⟩ := h (t, i) (by simp)
    unfold directives
    rw [schedule_parsed_partial i h1 t h2 h3 (t.length + 1) (by omega), Option.bind_some, if_neg h0,
      directives_parsed (texts := ts) (items := is) (by simpa using hlen) (fun p hp => h p (by simp [hp]))]
    simp

/-- Several options `-s`, each with the text of one or more directives and white space anywhere, do what their
directives mean, in the order of the command line. Missing: texts that the lexer changes (`TextOK`, C50). -/
theorem options_in_order_partial {σ : Type} (view : σ → View) (apply : σ → Op → Option σ) (s : σ) (texts : List Name)
    (items : List (List (List Name))) (hlen : texts.length = items.length)
    (hp : ∀ p ∈ texts.zip items, p.2 ≠ [] ∧ (∀ i ∈ p.2, ItemOK i) ∧ TextOK p.1 ∧ p.1.filter (fun c => !isSpace c) = scheduleText p.2)
    (os : List Op) (h : Mean view apply s items.flatten os) :
    ∃ s' g, runOptions view apply s texts = .ok (s', g) ∧ applyAll apply s os = some s' ∧ (g = true ↔ AnyGpu os) := by
  obtain ⟨s', g, h1, h2, h3⟩ := directives_in_order view apply s _ os h
  refine ⟨s', g, ?_, h2, h3⟩
  unfold runOptions
  rw [directives_parsed hlen hp]
  exact h1

theorem branch_ignored {v : View} {c : Cmd} {ps : List Name} (h : branch c v ps = .ok none) :
    ∃ i ipos t, c.text.toList :: ps = ["pos".toList, i, ipos, t] ∧ t ∉ v.args := by
  cases c with
  | pos =>
    match ps, h with
    | [i, ipos, t], h =>
      replace h : posAt v i ipos (findAccess t v.args 0) = .ok none := h
      cases hf : findAccess t v.args 0 with
      | none => exact ⟨i, ipos, t, rfl, findAccess_none.mp hf⟩
      | some r =>
        rw [hf] at h
        obtain ⟨y, hy, h_1⟩ := bind_ok h
        cases h_1
  | fuse =>
    match ps, h with
    | [i, j, f], h =>
      obtain ⟨_, _, h_2⟩ := bind_ok h
      obtain ⟨_, _, h_3⟩ := bind_ok h_2
      cases h_3
  | split =>
    match ps, h with
    | [i, i1, i2, p], h =>
      obtain ⟨_, _, h_4⟩ := bind_ok h
      obtain ⟨_, _, h_5⟩ := bind_ok h_4
      cases h_5
  | divide =>
    match ps, h with
    | [i, i1, i2, p], h =>
      obtain ⟨_, _, h_6⟩ := bind_ok h
      obtain ⟨_, _, h_7⟩ := bind_ok h_6
      cases h_7
  | precompute =>
    have key : ∀ e p q w, precomputeAs v e p q w ≠ .ok none := by
      intro e p q w h
      unfold precomputeAs at h
      obtain ⟨_, _, h_8⟩ := bind_ok h
      obtain ⟨_, _, h_9⟩ := bind_ok h_8
      obtain ⟨_, _, h_10⟩ := bind_ok h_9
      cases h_10
    match ps, h with
    | [e, p, q], h => exact absurd h (key e p q _)
    | [e, p, q, w], h => exact absurd h (key e p q w)
  | reorder =>
    replace h : (if ps.length > 1 then (findVars v ps).bind fun vs => .ok (some (Op.reorder vs)) else .error) = Res.ok none := h
    split at h
    · obtain ⟨_, _, h_11⟩ := bind_ok h
      cases h_11
    · cases h
  | mergeby =>
    match ps, h with
    | [i, s], h =>
      obtain ⟨_, _, h_12⟩ := bind_ok h
      obtain ⟨_, _, h_13⟩ := bind_ok h_12
      cases h_13
  | bound =>
    match ps, h with
    | [i, i1, p, t], h =>
      obtain ⟨_, _, h_14⟩ := bind_ok h
      obtain ⟨_, _, h_15⟩ := bind_ok h_14
      obtain ⟨_, _, h_16⟩ := bind_ok h_15
      cases h_16
  | unroll =>
    match ps, h with
    | [i, p], h =>
      obtain ⟨_, _, h_17⟩ := bind_ok h
      obtain ⟨_, _, h_18⟩ := bind_ok h_17
      cases h_18
  | parallelize =>
    match ps, h with
    | [i, u, r], h =>
      obtain ⟨_, _, h_19⟩ := bind_ok h
      obtain ⟨_, _, h_20⟩ := bind_ok h_19
      obtain ⟨_, _, h_21⟩ := bind_ok h_20
      cases h_21
  | assemble =>
    have key : ∀ t s b, assembleAs v t s b ≠ .ok none := by
      intro t s b h
      unfold assembleAs at h
      split at h
      · obtain ⟨_, _, h_22⟩ := bind_ok h
        obtain ⟨_, _, h_23⟩ := bind_ok h_22
        cases h_23
      · cases h
    match ps, h with
    | [t, s], h => exact absurd h (key t s _)
    | [t, s, b], h => exact absurd h (key t s b)

/-- Nothing is done for a directive exactly when it is `pos` for a tensor that is not an argument. -/
theorem ignored_iff (v : View) (d : List Name) :
    decode v d = .ok none ↔ ∃ i ipos t, d = ["pos".toList, i, ipos, t] ∧ t ∉ v.args := by
  constructor
  · intro h
    cases d with
    | nil => cases h
    | cons cmd ps =>
      obtain ⟨c, hc, h1⟩ := bind_ok (r := lookup commands cmd) (f := fun c => branch c v ps) h
      have hcmd := command_text hc
      subst hcmd
      exact branch_ignored h1
  · rintro ⟨i, ipos, t, rfl, ht⟩
    refine (decode_command v .pos _).trans ?_
    show posAt v _ _ (findAccess _ _ 0) = _
    rw [findAccess_none.mpr ht]; rfl

/-! ### Where directives do something else -/

/-- A `pos` that names a tensor that is not an argument, for example a misspelled one, has no effect and reports nothing,
even if the variable does not exist. -/
theorem pos_unknown_tensor_fails (v : View) (i ipos t : Name) (ht : t ∉ v.args) : decode v ["pos".toList, i, ipos, t] = .ok none :=
  (ignored_iff v _).mpr ⟨i, ipos, t, rfl, ht⟩

/-- When a tensor occurs twice, no directive reaches its second access. -/
theorem pos_second_access_fails (v : View) (j k : Nat) (t : Name) (hjk : j < k) (hj : v.args[j]? = some t) (hk : v.args[k]? = some t)
    (d : List Name) (i ipos : Name) : decode v d ≠ .ok (some (.pos i ipos k)) := by
  intro h
  cases d with
  | nil => cases h
  | cons cmd ps =>
    obtain ⟨c, hc, h1⟩ := bind_ok (r := lookup commands cmd) (f := fun c => branch c v ps) h
    cases c with
    | pos =>
      match ps, h1 with
      | [i', ipos', t'], h1 =>
        replace h1 : posAt v i' ipos' (findAccess t' v.args 0) = .ok (some (.pos i ipos k)) := h1
        cases hf : findAccess t' v.args 0 with
        | none => rw [hf] at h1; cases h1
        | some r =>
          rw [hf] at h1
          obtain ⟨y, hy, h2⟩ := bind_ok h1
          obtain ⟨k', hr, hf1, hf2⟩ := findAccess_some hf
          have e : k = k' := by
            replace h2 : Res.ok (some (Op.pos y ipos' r)) = Res.ok (some (Op.pos i ipos k)) := h2
            injection h2 with h2; injection h2 with h2; injection h2 with _ _ h2; omega
          subst e
          rw [hk] at hf1
          cases hf1
          exact hf2 j hjk hj
    | precompute =>
      have key : ∀ e p q w, precomputeAs v e p q w ≠ .ok (some (.pos i ipos k)) := by
        intro e p q w h
        unfold precomputeAs at h
        obtain ⟨_, _, h2⟩ := bind_ok h
        obtain ⟨_, _, h3⟩ := bind_ok h2
        obtain ⟨_, _, h4⟩ := bind_ok h3
        cases h4
      match ps, h1 with
      | [e, p, q], h1 => exact key e p q _ h1
      | [e, p, q, w], h1 => exact key e p q w h1
    | _ =>
      have := command_text hc
      subst this
      simp only [branch] at h1
      first
      | (unfold decodeFuse at h1; split at h1 <;> first | cases h1 | skip
         obtain ⟨_, _, h2⟩ := bind_ok h1; obtain ⟨_, _, h3⟩ := bind_ok h2; cases h3)
      | (unfold decodeSplit at h1; split at h1 <;> first | cases h1 | skip
         obtain ⟨_, _, h2⟩ := bind_ok h1; obtain ⟨_, _, h3⟩ := bind_ok h2; cases h3)
      | (unfold decodeDivide at h1; split at h1 <;> first | cases h1 | skip
         obtain ⟨_, _, h2⟩ := bind_ok h1; obtain ⟨_, _, h3⟩ := bind_ok h2; cases h3)
      | (unfold decodeReorder at h1; split at h1 <;> first | cases h1 | skip
         obtain ⟨_, _, h2⟩ := bind_ok h1; cases h2)
      | (unfold decodeMergeby at h1; split at h1 <;> first | cases h1 | skip
         obtain ⟨_, _, h2⟩ := bind_ok h1; obtain ⟨_, _, h3⟩ := bind_ok h2; cases h3)
      | (unfold decodeBound at h1; split at h1 <;> first | cases h1 | skip
         obtain ⟨_, _, h2⟩ := bind_ok h1; obtain ⟨_, _, h3⟩ := bind_ok h2; obtain ⟨_, _, h4⟩ := bind_ok h3; cases h4)
      | (unfold decodeUnroll at h1; split at h1 <;> first | cases h1 | skip
         obtain ⟨_, _, h2⟩ := bind_ok h1; obtain ⟨_, _, h3⟩ := bind_ok h2; cases h3)
      | (unfold decodeParallelize at h1; split at h1 <;> first | cases h1 | skip
         obtain ⟨_, _, h2⟩ := bind_ok h1; obtain ⟨_, _, h3⟩ := bind_ok h2; obtain ⟨_, _, h4⟩ := bind_ok h3; cases h4)
      | (have key : ∀ t s b, assembleAs v t s b ≠ .ok (some (.pos i ipos k)) := by
           intro t s b h
           unfold assembleAs at h
           split at h
           · obtain ⟨_, _, h2⟩ := bind_ok h
             obtain ⟨_, _, h3⟩ := bind_ok h2
             cases h3
           · cases h
         unfold decodeAssemble at h1; split at h1 <;> first | cases h1 | exact key _ _ _ h1)

theorem decode_split {v : View} {i i1 i2 p : Name} {n : Nat} (hn : scanZu p = .ok n) (h : i ∈ v.vars) :
    decode v ["split".toList, i, i1, i2, p] = .ok (some (.split i i1 i2 n)) := by
  refine (decode_command v .split _).trans ?_
  show (scanZu p).bind _ = _
  rw [hn]
  show (findVar v i).bind _ = _
  rw [findVar_mem h]; rfl

/-- `split(i,i0,i1,4x)` splits by four: what follows the digits is not looked at. -/
theorem number_suffix_fails (v : View) (h : ['i'] ∈ v.vars) : ∃ d, scheduleParser 30 "split(i,i0,i1,4x)".toList = some [d] ∧
    decode v d = .ok (some (.split ['i'] ['i', '0'] ['i', '1'] 4)) :=
  ⟨["split".toList, ['i'], ['i', '0'], ['i', '1'], ['4', 'x']], by decide +kernel, decode_split (by decide +kernel) h⟩

/-- `split(i,i0,i1,-1)` splits by `2^64 - 1`. -/
theorem number_sign_fails (v : View) (h : ['i'] ∈ v.vars) : ∃ d, scheduleParser 30 "split(i,i0,i1,-1)".toList = some [d] ∧
    decode v d = .ok (some (.split ['i'] ['i', '0'] ['i', '1'] 18446744073709551615)) :=
  ⟨["split".toList, ['i'], ['i', '0'], ['i', '1'], ['-', '1']], by decide +kernel, decode_split (by decide +kernel) h⟩

/-- A factor of zero, which the help excludes, is passed on. -/
theorem zero_factor_fails (v : View) (i i0 i1 : Name) (h : i ∈ v.vars) :
    decode v ["split".toList, i, i0, i1, ['0']] = .ok (some (.split i i0 i1 0)) :=
  directive_decoded v _ _ (.split h ⟨by simp, by decide, by decide, by decide⟩)

/-- The expression of `precompute` does not have to occur: then no expression at all is passed on. -/
theorem precompute_missing_fails (v : View) (t i : Name) (hi : i ∈ v.vars) (hl : Lists i [i]) (hn : ∀ e, Occurs e v.exprs → ¬ Hit (noSpaces t) e) :
    decode v ["precompute".toList, t, i, i] = .ok (some (.precompute none [i] [i] "workspace".toList .float64 [v.dim i])) := by
  refine (decode_command v .precompute _).trans ?_
  show precomputeAs v t i i _ = _
  have hf : visitAll (eraseSpaces t) v.exprs none = none := by
    cases hx : visitAll (eraseSpaces t) v.exprs none with
    | none => rfl
    | some e =>
      rw [eraseSpaces_eq] at hx
      rcases visitAll_sound hx with h | ⟨h1, h2⟩
      · cases h
      · exact absurd h2 (hn e h1)
  unfold precomputeAs
  rw [varList_lists hl]
  show (findVars v [i]).bind _ = _
  rw [findVars_mem (by simpa using hi)]
  show Res.ok _ = _
  rw [hf, show dimOf v = v.dim from funext (dimOf_eq v)]
  rfl

/-- The workspace of `precompute` holds doubles, whatever the type of the expression is. -/
theorem precompute_type_fails (v : View) (d : List Name) (e : Option Expr) (origs pres : List Name) (w : Name) (ty : Ty) (dims : List Dim)
    (hd : d.head? = some "precompute".toList) (h : decode v d = .ok (some (.precompute e origs pres w ty dims))) : ty = .float64 := by
  have key : ∀ x p q n, precomputeAs v x p q n = .ok (some (.precompute e origs pres w ty dims)) → ty = .float64 := by
    intro x p q n h
    unfold precomputeAs at h
    obtain ⟨_, _, h2⟩ := bind_ok h
    obtain ⟨_, _, h3⟩ := bind_ok h2
    obtain ⟨_, _, h4⟩ := bind_ok h3
    cases h4
    rfl
  cases d with
  | nil => cases h
  | cons cmd ps =>
    replace hd : some cmd = some "precompute".toList := hd
    injection hd with hd
    subst hd
    replace h : decodePrecompute v ps = _ := (decode_command v .precompute ps).symm.trans h
    unfold decodePrecompute at h
    split at h
    · exact key _ _ _ _ h
    · exact key _ _ _ _ h
    · cases h

/-! ### The hypotheses are met -/

/-- `y(i) = A(i,j) * x(j)` with integers. -/
def sample : View where
  vars := [['i'], ['j']]
  args := [['A'], ['x']]
  results := [['y']]
  exprs := [.node .binary "A(i,j)*x(j)".toList .int64 [.node .access "A(i,j)".toList .int64 [], .node .access "x(j)".toList .int64 []]]
  domain := fun x => if x = ['i'] then some 5 else none

example : Means sample ["split".toList, ['i'], ['i', '0'], ['i', '1'], "32".toList] (.split ['i'] ['i', '0'] ['i', '1'] 32) :=
  .split (by decide +kernel) ⟨by decide +kernel, by decide +kernel, by decide +kernel, by decide +kernel⟩

example : Means sample ["pos".toList, ['j'], "jpos".toList, ['x']] (.pos ['j'] "jpos".toList 1) :=
  .pos (by decide +kernel) ⟨by decide +kernel, by decide +kernel⟩

example : ∀ p ∈ ["split".toList, ['i'], ['i', '0'], ['i', '1'], "32".toList], Tidy p := by
  intro p hp c cs e
  simp only [List.mem_cons, List.not_mem_nil, or_false] at hp
  rcases hp with rfl | rfl | rfl | rfl | rfl <;> (cases e; decide +kernel)

theorem sample_occurs {e : Expr} (h : Occurs e sample.exprs) :
    e.text = "A(i,j)*x(j)".toList ∧ e.kind = .binary ∧ [e] = sample.exprs ∨ e = .node .access "A(i,j)".toList .int64 [] ∨
      e = .node .access "x(j)".toList .int64 [] := by
  cases h with
  | here => exact .inl ⟨rfl, rfl, rfl⟩
  | inside _ _ _ _ _ h =>
    cases h with
    | here => exact .inr (.inl rfl)
    | inside _ _ _ _ _ h => cases h
    | later _ _ h =>
      cases h with
      | here => exact .inr (.inr rfl)
      | inside _ _ _ _ _ h => cases h
      | later _ _ h => cases h
  | later _ _ h => cases h

theorem sample_leaves : Leaves sample.exprs := by
  intro t ty as h
  rcases sample_occurs h with ⟨_, h, _⟩ | h | h
  · cases h
  · cases h; rfl
  · cases h; rfl

theorem sample_lists (c : Char) (h : isAlnum c = true) (hp : c ∉ ['(', ')', '{', '}', ',']) : Lists [c] [[c]] := by
  have hs : isSpace c = false := by
    cases hs : isSpace c with
    | false => rfl
    | true =>
      unfold isSpace at hs
      unfold isAlnum isAlpha isDigit at h
      simp only [Bool.or_eq_true, Bool.and_eq_true, decide_eq_true_eq, beq_iff_eq] at hs h
      rcases hs with hs | hs
      · subst hs
        have : (' ' : Char).toNat = 32 := by decide
        omega
      · omega
  have inf : ∀ w : List Char, 2 ≤ w.length → ¬ w <:+: [c] := fun w hw hi => by
    have := hi.length_le
    simp at this; omega
  refine ⟨by simp, ?_, ⟨?_, ?_, inf _ (by decide), inf _ (by decide)⟩, .inl ⟨[c], rfl, rfl⟩, ?_⟩
  · intro x hx; rw [List.mem_singleton] at hx; subst hx
    exact ⟨by simp, fun y hy => by rw [List.mem_singleton] at hy; subst hy; exact hp⟩
  · intro x hx; rw [List.mem_singleton] at hx; subst hx; exact .inr (.inl h)
  · exact fun d _ => inf _ (by simp)
  · intro x hx; rw [List.mem_singleton] at hx; subst hx; exact hs

/-- `precompute(A(i,j) * x(j), i, i)`. -/
theorem sample_precompute : ∃ e, MeansPrecompute sample ["precompute".toList, "A(i,j) * x(j)".toList, ['i'], ['i']]
    (.precompute (some e) [['i']] [['i']] "workspace".toList .float64 [.size 5]) ∧ e.type = .int64 := by
  refine ⟨_, .unnamed (sample_lists 'i' (by decide) (by decide)) (sample_lists 'i' (by decide) (by decide)) (by decide +kernel) (.here _)
    ⟨by decide +kernel, by decide⟩ ?_, rfl⟩
  intro e' ho hh
  rcases sample_occurs ho with ⟨_, _, h⟩ | h | h
  · injection h
  · subst h; exact absurd hh.1 (by decide +kernel)
  · subst h; exact absurd hh.1 (by decide +kernel)

/-- A statement that is not changed by the transformations, two directives, the second one for a GPU. -/
example : Mean (fun _ : Unit => sample) (fun s _ => some s) ()
    [["reorder".toList, ['j'], ['i']], ["parallelize".toList, ['i'], "GPUWarp".toList, "Atomics".toList]]
    [.reorder [['j'], ['i']], .parallelize ['i'] .gpuWarp .atomics] :=
  .cons (.inl (.reorder (by decide) (by decide +kernel))) rfl (.cons (.inl (.parallelize .gpuWarp .atomics (by decide +kernel))) rfl .nil)

example : ['B'] ∉ sample.args := by decide +kernel

end Verif.Directive
