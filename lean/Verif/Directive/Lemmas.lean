import Verif.Directive.Model
import Verif.Schedule.Theorems
/-! Lemmas for `Verif.Directive.Theorems`. -/
namespace Verif.Directive
open Verif.IndexText Verif.Schedule

theorem bind_ok {α β : Type} {r : Res α} {f : α → Res β} {b : β} (h : r.bind f = .ok b) : ∃ a, r = .ok a ∧ f a = .ok b := by
  cases r with
  | ok a => exact ⟨a, rfl, h⟩
  | error => cases h
  | undefined => cases h

theorem bind_undefined {α β : Type} {r : Res α} {f : α → Res β} (h : r.bind f = .undefined) : r = .undefined ∨ ∃ a, r = .ok a ∧ f a = .undefined := by
  cases r with
  | ok a => exact .inr ⟨a, rfl, h⟩
  | error => cases h
  | undefined => exact .inl rfl

theorem findVar_mem {v : View} {x : Name} (h : x ∈ v.vars) : findVar v x = .ok x := if_pos h

theorem findVar_ok {v : View} {x y : Name} (h : findVar v x = .ok y) : y = x ∧ x ∈ v.vars := by
  unfold findVar at h
  split at h
  · rename_i hm; cases h; exact ⟨rfl, hm⟩
  · cases h

theorem findVar_undefined {v : View} {x : Name} : findVar v x ≠ .undefined := by
  unfold findVar; split <;> exact fun h => nomatch h

theorem findVars_mem {v : View} : ∀ {xs : List Name}, (∀ x ∈ xs, x ∈ v.vars) → findVars v xs = .ok xs
  | [], _ => rfl
  | x :: xs, h => by
    unfold findVars
    rw [findVar_mem (h x (by simp)), findVars_mem (xs := xs) fun y hy => h y (by simp [hy])]; rfl

theorem findVars_ok {v : View} : ∀ {xs ys : List Name}, findVars v xs = .ok ys → ys = xs ∧ ∀ x ∈ xs, x ∈ v.vars
  | [], ys, h => by cases h; exact ⟨rfl, by simp⟩
  | x :: xs, ys, h => by
    unfold findVars at h
    obtain ⟨y, hy, h⟩ := bind_ok h
    obtain ⟨zs, hz, h⟩ := bind_ok h
    obtain ⟨rfl, hm⟩ := findVar_ok hy
    obtain ⟨rfl, hms⟩ := findVars_ok hz
    rename_i h0 _
    injection h0 with h0
    refine ⟨h0.symm, ?_⟩
    intro z hz
    rcases List.mem_cons.mp hz with rfl | hz
    · exact hm
    · exact hms z hz

theorem findVars_undefined {v : View} : ∀ {xs : List Name}, findVars v xs ≠ .undefined
  | [], h => nomatch h
  | x :: xs, h => by
    unfold findVars at h
    rcases bind_undefined h with h | ⟨y, _, h⟩
    · exact findVar_undefined h
    · rcases bind_undefined h with h | ⟨_, _, h⟩
      · exact findVars_undefined h
      · cases h

/-! ### Numbers -/

theorem digit_not_space {c : Char} (h : isDigit c = true) : isSpace c = false := by
  unfold isDigit at h
  simp only [Bool.and_eq_true, decide_eq_true_eq] at h
  unfold isSpace
  rw [Bool.or_eq_false_iff]
  refine ⟨?_, ?_⟩
  · rw [beq_eq_false_iff_ne]; intro e; subst e
    have : (' ' : Char).toNat = 32 := by decide
    omega
  · rw [Bool.and_eq_false_iff]; right; simp; omega

theorem digit_ne {c : Char} (h : isDigit c = true) : c ≠ '-' ∧ c ≠ '+' := by
  constructor <;> (intro e; subst e; revert h; decide)

theorem takeWhile_all {p : Char → Bool} : ∀ {l : List Char}, (∀ c ∈ l, p c = true) → l.takeWhile p = l
  | [], _ => rfl
  | c :: cs, h => by
    rw [List.takeWhile_cons, if_pos (h c (by simp)), takeWhile_all fun x hx => h x (by simp [hx])]

theorem scanSign_digits {c : Char} {cs : Name} (h1 : c ≠ '-') (h2 : c ≠ '+') : scanSign (c :: cs) = scanDigits false (c :: cs) := by
  unfold scanSign
  split
  · rename_i heq; injection heq with e; exact absurd e h1
  · rename_i heq; injection heq with e; exact absurd e h2
  · rfl

theorem scanZu_numeral {p : Name} {n : Nat} (h : Numeral p n) : scanZu p = .ok n := by
  obtain ⟨hne, hd, hv, hn⟩ := h
  cases p with
  | nil => exact absurd rfl hne
  | cons c cs =>
    have hc := hd c (by simp)
    unfold scanZu
    rw [List.dropWhile_cons, if_neg (by simp [digit_not_space hc]), scanSign_digits (digit_ne hc).1 (digit_ne hc).2]
    unfold scanDigits
    rw [takeWhile_all hd]
    show (if c :: cs = [] then _ else _) = _
    rw [if_neg hne, if_neg (by rw [hv]; omega), hv]; rfl

theorem scanZu_tidy {p : Name} (ht : Tidy p) : (∃ n, Numeral p n ∧ scanZu p = .ok n) ∨ scanZu p = .error ∨
    ((∀ c ∈ p, isDigit c = true) ∧ 2 ^ 64 ≤ decVal p ∧ scanZu p = .undefined) := by
  cases p with
  | nil => exact .inr (.inl rfl)
  | cons c cs =>
    obtain ⟨h1, h2, h3, h4⟩ := ht c cs rfl
    by_cases hc : isDigit c = true
    · have hd : ∀ x ∈ c :: cs, isDigit x = true := by
        intro x hx
        rcases List.mem_cons.mp hx with rfl | hx
        · exact hc
        · exact h4 hc x hx
      by_cases hv : decVal (c :: cs) < 2 ^ 64
      · have hN : Numeral (c :: cs) (decVal (c :: cs)) := ⟨by simp, hd, rfl, hv⟩
        exact .inl ⟨_, hN, scanZu_numeral hN⟩
      · refine .inr (.inr ⟨hd, by omega, ?_⟩)
        unfold scanZu
        rw [List.dropWhile_cons, if_neg (by simp [h3]), scanSign_digits h2 h1]
        unfold scanDigits
        rw [takeWhile_all hd]
        show (if c :: cs = [] then _ else _) = _
        rw [if_neg (by simp), if_pos (by omega)]
    · refine .inr (.inl ?_)
      unfold scanZu
      rw [List.dropWhile_cons, if_neg (by simp [h3]), scanSign_digits h2 h1]
      unfold scanDigits
      rw [List.takeWhile_cons, if_neg hc]
      rfl

theorem scan_ok {p : Name} {n : Nat} (ht : Tidy p) (h : scanZu p = .ok n) : Numeral p n := by
  rcases scanZu_tidy ht with ⟨m, hN, h'⟩ | h' | ⟨_, _, h'⟩
  · rw [h] at h'; cases h'; exact hN
  · rw [h] at h'; cases h'
  · rw [h] at h'; cases h'

/-! ### Tables -/

theorem lookup_ok {α : Type} : ∀ {t : List (String × α)} {x : Name} {a : α}, lookup t x = .ok a → ∃ s, (s, a) ∈ t ∧ x = s.toList
  | [], x, a, h => nomatch h
  | (s, b) :: t, x, a, h => by
    unfold lookup at h
    split at h
    · rename_i he; cases h; exact ⟨s, by simp, he⟩
    · obtain ⟨s', hm, he⟩ := lookup_ok h; exact ⟨s', by simp [hm], he⟩

theorem lookup_undefined {α : Type} : ∀ {t : List (String × α)} {x : Name}, lookup t x ≠ .undefined
  | [], x, h => nomatch h
  | (s, b) :: t, x, h => by
    unfold lookup at h
    split at h
    · cases h
    · exact lookup_undefined h

theorem lookup_merge (s : Merge) : lookup mergeTable s.text.toList = .ok s := by cases s <;> decide +kernel
theorem lookup_bound (s : BoundType) : lookup boundTable s.text.toList = .ok s := by cases s <;> decide +kernel
theorem lookup_unit (s : ParUnit) : lookup unitTable s.text.toList = .ok s := by cases s <;> decide +kernel
theorem lookup_race (s : Race) : lookup raceTable s.text.toList = .ok s := by cases s <;> decide +kernel
theorem lookup_asm (s : AsmStrategy) : lookup asmTable s.text.toList = .ok s := by cases s <;> decide +kernel
theorem lookup_bool (b : Bool) : lookup boolTable (toString b).toList = .ok b := by cases b <;> decide +kernel

theorem merge_text {x : Name} {s : Merge} (h : lookup mergeTable x = .ok s) : x = s.text.toList := by
  obtain ⟨t, hm, rfl⟩ := lookup_ok h
  simp only [mergeTable, List.mem_cons, List.not_mem_nil, or_false, Prod.mk.injEq] at hm
  rcases hm with ⟨rfl, rfl⟩ | ⟨rfl, rfl⟩ <;> rfl

theorem bound_text {x : Name} {s : BoundType} (h : lookup boundTable x = .ok s) : x = s.text.toList := by
  obtain ⟨t, hm, rfl⟩ := lookup_ok h
  simp only [boundTable, List.mem_cons, List.not_mem_nil, or_false, Prod.mk.injEq] at hm
  rcases hm with ⟨rfl, rfl⟩ | ⟨rfl, rfl⟩ | ⟨rfl, rfl⟩ | ⟨rfl, rfl⟩ <;> rfl

theorem unit_text {x : Name} {s : ParUnit} (h : lookup unitTable x = .ok s) : x = s.text.toList := by
  obtain ⟨t, hm, rfl⟩ := lookup_ok h
  simp only [unitTable, List.mem_cons, List.not_mem_nil, or_false, Prod.mk.injEq] at hm
  rcases hm with ⟨rfl, rfl⟩ | ⟨rfl, rfl⟩ | ⟨rfl, rfl⟩ | ⟨rfl, rfl⟩ | ⟨rfl, rfl⟩ | ⟨rfl, rfl⟩ <;> rfl

theorem race_text {x : Name} {s : Race} (h : lookup raceTable x = .ok s) : x = s.text.toList := by
  obtain ⟨t, hm, rfl⟩ := lookup_ok h
  simp only [raceTable, List.mem_cons, List.not_mem_nil, or_false, Prod.mk.injEq] at hm
  rcases hm with ⟨rfl, rfl⟩ | ⟨rfl, rfl⟩ | ⟨rfl, rfl⟩ | ⟨rfl, rfl⟩ | ⟨rfl, rfl⟩ <;> rfl

theorem asm_text {x : Name} {s : AsmStrategy} (h : lookup asmTable x = .ok s) : x = s.text.toList := by
  obtain ⟨t, hm, rfl⟩ := lookup_ok h
  simp only [asmTable, List.mem_cons, List.not_mem_nil, or_false, Prod.mk.injEq] at hm
  rcases hm with ⟨rfl, rfl⟩ | ⟨rfl, rfl⟩ <;> rfl

theorem bool_text {x : Name} {b : Bool} (h : lookup boolTable x = .ok b) : x = (toString b).toList := by
  obtain ⟨t, hm, rfl⟩ := lookup_ok h
  simp only [boolTable, List.mem_cons, List.not_mem_nil, or_false, Prod.mk.injEq] at hm
  rcases hm with ⟨rfl, rfl⟩ | ⟨rfl, rfl⟩ <;> rfl

/-! ### Accesses -/

theorem findAccess_first {t : Name} : ∀ {args : List Name} {k n : Nat}, First args k t → findAccess t args n = some (n + k)
  | [], k, n, h => by simp [First] at h
  | a :: as, 0, n, h => by
    have : a = t := by simpa using h.1
    unfold findAccess; rw [if_pos this]; rfl
  | a :: as, k + 1, n, h => by
    have hne : a ≠ t := fun e => h.2 0 (by omega) (by simp [e])
    unfold findAccess
    rw [if_neg hne, findAccess_first (k := k) ⟨by simpa using h.1, fun j hj => by simpa using h.2 (j + 1) (by omega)⟩]
    congr 1; omega

theorem findAccess_some {t : Name} : ∀ {args : List Name} {r n : Nat}, findAccess t args n = some r → ∃ k, r = n + k ∧ First args k t
  | [], r, n, h => nomatch h
  | a :: as, r, n, h => by
    unfold findAccess at h
    split at h
    · rename_i he
      injection h with h
      exact ⟨0, by omega, by simp [he], fun j hj => by omega⟩
    · rename_i hne
      obtain ⟨k, hr, hf⟩ := findAccess_some h
      refine ⟨k + 1, by omega, by simpa using hf.1, ?_⟩
      intro j hj
      cases j with
      | zero => simpa using hne
      | succ j => simpa using hf.2 j (by omega)

theorem findAccess_none {t : Name} : ∀ {args : List Name} {n : Nat}, findAccess t args n = none ↔ t ∉ args
  | [], n => by simp [findAccess]
  | a :: as, n => by
    unfold findAccess
    split
    · rename_i he; simp [he]
    · rename_i hne; rw [findAccess_none (args := as)]; simp; exact fun _ e => hne e.symm

/-! ### Commands -/

def Cmd.text : Cmd → String
  | .pos => "pos"
  | .fuse => "fuse"
  | .split => "split"
  | .divide => "divide"
  | .precompute => "precompute"
  | .reorder => "reorder"
  | .mergeby => "mergeby"
  | .bound => "bound"
  | .unroll => "unroll"
  | .parallelize => "parallelize"
  | .assemble => "assemble"

theorem lookup_command (c : Cmd) : lookup commands c.text.toList = .ok c := by cases c <;> decide +kernel

theorem command_text {x : Name} {c : Cmd} (h : lookup commands x = .ok c) : x = c.text.toList := by
  obtain ⟨t, hm, rfl⟩ := lookup_ok h
  simp only [commands, List.mem_cons, List.not_mem_nil, or_false, Prod.mk.injEq] at hm
  rcases hm with ⟨rfl, rfl⟩ | ⟨rfl, rfl⟩ | ⟨rfl, rfl⟩ | ⟨rfl, rfl⟩ | ⟨rfl, rfl⟩ | ⟨rfl, rfl⟩ | ⟨rfl, rfl⟩ | ⟨rfl, rfl⟩ | ⟨rfl, rfl⟩ | ⟨rfl, rfl⟩ | ⟨rfl, rfl⟩ <;> rfl

theorem decode_command (v : View) (c : Cmd) (ps : List Name) : decode v (c.text.toList :: ps) = branch c v ps := by
  show (lookup commands c.text.toList).bind _ = _
  rw [lookup_command]; rfl

/-! ### Subexpressions -/

theorem eraseSpaces_eq : ∀ t : Name, eraseSpaces t = noSpaces t
  | [] => rfl
  | c :: cs => by
    unfold eraseSpaces noSpaces
    rw [eraseSpaces_eq cs, List.filter_cons]
    by_cases h : c = ' '
    · simp [h, noSpaces]
    · simp [h, noSpaces]

mutual
theorem visit_sound {t : Name} : ∀ {x : Expr} {acc : Option Expr} {e : Expr}, visit t x acc = some e → acc = some e ∨ (Occurs e [x] ∧ Hit t e)
  | .node k tx ty as, acc, e, h => by
    unfold visit at h
    split at h
    · rename_i hk
      cases h
      exact .inr ⟨.here _, hk.2, hk.1⟩
    · split at h
      · exact .inl h
      · rcases visitAll_sound h with h | ⟨ho, hh⟩
        · exact .inl h
        · exact .inr ⟨.inside _ _ _ _ _ ho, hh⟩
theorem visitAll_sound {t : Name} : ∀ {es : List Expr} {acc : Option Expr} {e : Expr}, visitAll t es acc = some e → acc = some e ∨ (Occurs e es ∧ Hit t e)
  | [], acc, e, h => .inl (by simpa [visitAll] using h)
  | x :: es, acc, e, h => by
    unfold visitAll at h
    rcases visitAll_sound h with h | ⟨ho, hh⟩
    · rcases visit_sound h with h | ⟨ho, hh⟩
      · exact .inl h
      · refine .inr ⟨?_, hh⟩
        cases ho with
        | here => exact .here _
        | inside k t ty as _ ho => exact .inside _ _ _ _ _ ho
        | later _ _ ho => cases ho
    · exact .inr ⟨.later _ _ ho, hh⟩
end

theorem occurs_singleton {e x : Expr} {es : List Expr} (h : Occurs e [x]) : Occurs e (x :: es) := by
  cases h with
  | here => exact .here _
  | inside k t ty as _ ho => exact .inside _ _ _ _ _ ho
  | later _ _ ho => cases ho

mutual
theorem visit_none {t : Name} : ∀ {x : Expr} {acc : Option Expr}, Leaves [x] → visit t x acc = none → acc = none ∧ ∀ e, Occurs e [x] → ¬ Hit t e
  | .node k tx ty as, acc, hl, h => by
    unfold visit at h
    split at h
    · cases h
    · rename_i hk
      split at h
      · rename_i ha
        subst ha
        have := hl tx ty as (.here _)
        subst this
        refine ⟨h, ?_⟩
        intro e ho hh
        cases ho with
        | here => exact hk ⟨hh.2, hh.1⟩
        | inside _ _ _ _ _ ho => cases ho
        | later _ _ ho => cases ho
      · obtain ⟨h, hn⟩ := visitAll_none (fun t' ty' as' ho => hl t' ty' as' (.inside _ _ _ _ _ ho)) h
        refine ⟨h, ?_⟩
        intro e ho hh
        cases ho with
        | here => exact hk ⟨hh.2, hh.1⟩
        | inside _ _ _ _ _ ho => exact hn e ho hh
        | later _ _ ho => cases ho
theorem visitAll_none {t : Name} : ∀ {es : List Expr} {acc : Option Expr}, Leaves es → visitAll t es acc = none → acc = none ∧ ∀ e, Occurs e es → ¬ Hit t e
  | [], acc, _, h => ⟨by simpa [visitAll] using h, fun e ho => by cases ho⟩
  | x :: es, acc, hl, h => by
    unfold visitAll at h
    obtain ⟨h, hn⟩ := visitAll_none (fun t' ty' as' ho => hl t' ty' as' (.later _ _ ho)) h
    obtain ⟨h, hn'⟩ := visit_none (fun t' ty' as' ho => hl t' ty' as' (occurs_singleton ho)) h
    refine ⟨h, ?_⟩
    intro e ho
    cases ho with
    | here => exact hn' _ (.here _)
    | inside _ _ _ _ _ ho => exact hn' e (.inside _ _ _ _ _ ho)
    | later _ _ ho => exact hn e ho
end

theorem varList_lists {p : Name} {vars : List Name} (h : Lists p vars) : varList p = .ok vars := by
  obtain ⟨hne, hv, ht, hp, hs⟩ := h
  have hf : p.filter (fun c => !isSpace c) = p := List.filter_eq_self.mpr fun c hc => by simp [hs c hc]
  unfold varList
  rw [var_list_parsed_partial vars hne hv p ht (by
    rw [hf]
    rcases hp with ⟨x, e1, e2⟩ | e3
    · exact .inr ⟨x, e1, e2⟩
    · exact .inl e3) (p.length + 1) (by omega)]

end Verif.Directive
