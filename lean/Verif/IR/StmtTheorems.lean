import Verif.IR.StmtRemove
import Verif.IR.Theorems
/-! C26: simplification of generated statements keeps what they compute. -/
namespace Verif.IR
open Verif.Types
open Verif.Scoped (SMap get)

variable {F : Type} {vk ak : Nat → Kind} {A : Flt F}

/-- If the original program finishes, the simplified one finishes with the same memory and the same values of the
variables declared outside the program.

`V` are the variables declared outside. The program is well scoped and well typed. Partial: no loop reads an
earlier copy of a variable that it assigns (`NoStale`), declarations of the same variable are equally deep
(`Levels`), and a loop whose body only assigns variables assigns every variable once, and not those of its bounds
(`LoopsOK`). The theorems below show that none of these can be dropped. -/
theorem simplifyStmt_sound_partial (hA : FltLaws A) {V : List Nat} {lv : Nat → Nat} {t t' : Stmt F}
    (hw : WS V t) (ht : WTS vk ak t) (hns : NoStale [] t) (hl : Levels lv 0 t) (hlo : LoopsOK vk [] t)
    (h : simplifyStmt A t = some t') {n : Nat} {σ σ' : Env F} (he : EnvOK vk ak σ) (hrun : run A n t σ = some σ') :
    ∃ τ', run A (n + 1) t' σ = some τ' ∧ τ'.mem = σ'.mem ∧ ∀ x ∈ V, τ'.var x = σ'.var x := by
  obtain ⟨⟨t1, s'⟩, h1, h2⟩ := bind_some_iff h
  have hs : Static vk (loopDependent t) V [] 0 (fun _ => none) CP.init :=
    ⟨⟨fun _ _ h => (nomatch h), trivial⟩, by simp [CP.init, Scoped.initial],
      fun x k y h => by simp [CP.init, Scoped.initial, Scoped.get] at h⟩
  have hD : DeclOK V CP.init := ⟨by simp [CP.init, Scoped.initial], fun x id h => by simp [CP.init, Scoped.initial, Scoped.get] at h⟩
  have hr1 := (cp_sound (lv := lv) hA t (fun _ => none, []) (fun _ => False) n σ σ' h1 hw ht hns hs hl (fun _ _ h => nomatch h)
    (fun x h => h) (fun _ _ h => h) (fun _ _ h => h) (by intro x k y h; simp [CP.init, Scoped.initial, Scoped.get] at h) he hrun).1
  obtain ⟨τ1, hr2, ha⟩ := prune_sound (N := s'.nec) (lv := lv) hA t (fun _ => none, []) n σ σ σ' h1 hw ht hs hl (fun _ _ h => nomatch h) hD
    (fun _ h => h) ⟨rfl, fun _ _ _ => rfl⟩ hr1
  obtain ⟨k1, k2, k3⟩ := cp_keeps (N := s'.nec) (V' := V) (lv := lv) hA t (fun _ => none, []) h1 hw ht hns hlo hs hl (fun _ _ h => nomatch h)
    hD (fun _ h => h) (fun _ h _ => h) (fun _ h => h)
  obtain ⟨τ2, hr3, hsame⟩ := loops_sound hA (prune s'.nec t1) n σ σ τ1 h2 k1 k2 k3 he ⟨rfl, fun _ _ => rfl⟩ hr2
  refine ⟨τ2, hr3, (ha.mem.trans hsame.mem).symm, fun x hx => ?_⟩
  have hk : Kept s' s'.nec x := fun id hid => by
    rw [(cp_decls t h1 hD.ne).get fun hh => hw.fresh x hx (declares_decls t x hh)] at hid
    simp [CP.init, Scoped.initial, Scoped.get] at hid
  exact ((ha.var x (List.mem_append_right _ hx) hk).trans (hsame.var x (List.mem_append_right _ hx))).symm

/-! ### The hypotheses are met -/

section Samples

/-- Expressions with 32-bit integers only. -/
def allInt : Expr Unit → Bool
  | .lit .int32 (.i n) => wrap .int32 n == n
  | .var .int32 _ => true
  | .arith _ a b => allInt a && allInt b
  | _ => false

def allIntS : Stmt Unit → Bool
  | .skip => true
  | .seq a b => allIntS a && allIntS b
  | .scope s => allIntS s
  | .decl _ k _ e | .assign k _ e => k == .int32 && allInt e
  | .store k _ loc e => k == .int32 && allInt loc && allInt e
  | .ite (.cmp _ a b) s t => allInt a && allInt b && allIntS s && allIntS t
  | .ite .. => false
  | .loop k _ s e i b => k == .int32 && allInt s && allInt e && allInt i && allIntS b
  | .while (.cmp _ a b) s => allInt a && allInt b && allIntS s
  | .while .. => false

abbrev i32 : Nat → Kind := fun _ => .int32

theorem allInt_wt (e : Expr Unit) (h : allInt e = true) : WT i32 i32 e .int32 := by
  have hk : numeric .int32 := ⟨by decide, by decide⟩
  induction e with
  | lit k v =>
    unfold allInt at h
    split at h <;> simp_all
    exact WT.intLit rfl (by assumption)
  | var k x =>
    unfold allInt at h
    split at h <;> simp_all
    exact WT.var (vk := i32)
  | arith op a b iha ihb =>
    simp only [allInt, Bool.and_eq_true] at h
    exact .arith hk (iha h.1) (ihb h.2)
  | _ => simp [allInt] at h

theorem allIntS_wt (t : Stmt Unit) (h : allIntS t = true) : WTS i32 i32 t := by
  induction t with
  | skip => trivial
  | seq a b iha ihb => simp only [allIntS, Bool.and_eq_true] at h; exact ⟨iha h.1, ihb h.2⟩
  | scope s ih => exact ih h
  | decl _ k x e => simp only [allIntS, Bool.and_eq_true, beq_iff_eq] at h; exact ⟨h.1, h.1 ▸ allInt_wt e h.2⟩
  | assign k x e => simp only [allIntS, Bool.and_eq_true, beq_iff_eq] at h; exact ⟨h.1, h.1 ▸ allInt_wt e h.2⟩
  | store k arr loc e =>
    simp only [allIntS, Bool.and_eq_true, beq_iff_eq] at h
    exact ⟨h.1.1, ⟨.int32, rfl, allInt_wt loc h.1.2⟩, h.1.1 ▸ allInt_wt e h.2⟩
  | ite c a b iha ihb =>
    cases c with
    | cmp op x y =>
      simp only [allIntS, Bool.and_eq_true] at h
      exact ⟨.cmp (allInt_wt x h.1.1.1) (allInt_wt y h.1.1.2), iha h.1.2, ihb h.2⟩
    | _ => simp [allIntS] at h
  | loop k x s e i b ih =>
    simp only [allIntS, Bool.and_eq_true, beq_iff_eq] at h
    obtain ⟨⟨⟨⟨rfl, h1⟩, h2⟩, h3⟩, h4⟩ := h
    exact ⟨rfl, rfl, allInt_wt s h1, allInt_wt e h2, allInt_wt i h3, ih h4⟩
  | «while» c b ih =>
    cases c with
    | cmp op x y =>
      simp only [allIntS, Bool.and_eq_true] at h
      exact ⟨.cmp (allInt_wt x h.1.1) (allInt_wt y h.1.2), ih h.2⟩
    | _ => simp [allIntS] at h

local notation "‹" n "›" => (Expr.lit Kind.int32 (Val.i n) : Expr Unit)
local notation "v" x => (Expr.var Kind.int32 x : Expr Unit)
local infixl:65 " +ₑ " => Expr.arith AOp.add
local infixr:40 " ;; " => Stmt.seq

/-- Every variable in `V` is defined, the arrays hold nothing. -/
def start (f : Nat → Option Int) : Env Unit := ⟨fun x => (f x).map .i, fun _ _ => none⟩

theorem start_ok (f : Nat → Option Int) (h : ∀ x n, f x = some n → wrap .int32 n = n) : EnvOK i32 i32 (start f) :=
  ⟨fun x w hw => by
    obtain ⟨n, hn, rfl⟩ := Option.map_eq_some_iff.1 hw
    exact ⟨rfl, h x n hn⟩, fun _ _ _ h => nomatch h⟩

/-- Variable 0 is declared outside. `int c = n + 0; int s = 0; for (i = 0; i < c; i++) { s = s + 2; }
int j = 0; while (j < c) { int k = j; a[k] = s; j = j + 1; }` -/
def sampleStmt : Stmt Unit :=
  .decl 0 .int32 1 ((v 0) +ₑ ‹0›) ;; .decl 1 .int32 2 ‹0› ;;
  .loop .int32 3 ‹0› (v 1) ‹1› (.assign .int32 2 ((v 2) +ₑ ‹2›)) ;;
  .decl 2 .int32 4 ‹0› ;;
  .while (.cmp .lt (v 4) (v 1)) (.decl 3 .int32 5 (v 4) ;; .store .int32 0 (v 5) (v 2) ;; .assign .int32 4 ((v 4) +ₑ ‹1›))

example : WS [0] sampleStmt := by simp [sampleStmt, WS, Stmt.declares, Expr.vars]
example : WTS i32 i32 sampleStmt := allIntS_wt _ (by decide +kernel)
example : NoStale [] sampleStmt := by
  simp [sampleStmt, NoStale, Stmt.copies, Expr.mayCopy, Stmt.used, Stmt.assigned, Expr.vars]
example : Levels (fun x => if x = 5 then 1 else 0) 0 sampleStmt := by simp [sampleStmt, Levels]
example : LoopsOK i32 [] sampleStmt := by
  simp [sampleStmt, LoopsOK, Stmt.straight, Stmt.copies, Expr.mayCopy, Stmt.assigned, Expr.vars]
example : EnvOK i32 i32 (start fun x => if x = 0 then some 3 else none) :=
  start_ok _ fun x n h => by split at h <;> cases h; decide
/-- The copies are gone and the first loop has become an assignment. -/
example : simplifyStmt trivialFlt sampleStmt = some (
    .skip ;; .decl 1 .int32 2 ‹0› ;;
    .ite (.cmp .lt ‹0› (v 0)) (.assign .int32 2 ((v 2) +ₑ (.arith .mul (v 0) ‹2›))) .skip ;;
    .decl 2 .int32 4 ‹0› ;;
    .while (.cmp .lt (v 4) (v 0)) (.skip ;; .store .int32 0 (v 4) (v 2) ;; .assign .int32 4 ((v 4) +ₑ ‹1›))) := by decide +kernel
example : ((run trivialFlt 20 sampleStmt (start fun x => if x = 0 then some 3 else none)).map fun σ => [σ.mem 0 0, σ.mem 0 2, σ.mem 0 3])
    = some [some (.i 6), some (.i 6), none] := by decide +kernel

/-! ### Where simplification changes the program -/

/-- Memory after running: cell `a[0]`. -/
def out (n : Nat) (t : Stmt Unit) (σ : Env Unit) : Option (Val Unit) := (run trivialFlt n t σ).bind fun σ' => σ'.mem 0 0

/-- `int b = a; while (i < 2) { x = b; a = a + 1; i = i + 1; } A[0] = x`: `b` keeps the first value of `a`, but it is
replaced by `a` in the loop, where `a` changes: the copy is forgotten only after the assignment. -/
theorem simplifyStmt_stale_copy_fails : ∃ (V : List Nat) (t t' : Stmt Unit) (σ : Env Unit), WS V t ∧ WTS i32 i32 t ∧
    LoopsOK i32 [] t ∧ Levels (fun _ => 0) 0 t ∧ EnvOK i32 i32 σ ∧ simplifyStmt trivialFlt t = some t' ∧
    out 20 t σ = some (.i 0) ∧ out 20 t' σ = some (.i 1) :=
  ⟨[0, 1, 2],
    .decl 0 .int32 3 (v 0) ;;
    .while (.cmp .lt (v 1) ‹2›) (.assign .int32 2 (v 3) ;; .assign .int32 0 ((v 0) +ₑ ‹1›) ;; .assign .int32 1 ((v 1) +ₑ ‹1›)) ;;
    .store .int32 0 ‹0› (v 2),
    .skip ;;
    .while (.cmp .lt (v 1) ‹2›) (.assign .int32 2 (v 0) ;; .assign .int32 0 ((v 0) +ₑ ‹1›) ;; .assign .int32 1 ((v 1) +ₑ ‹1›)) ;;
    .store .int32 0 ‹0› (v 2),
    start fun _ => some 0,
    by simp [WS, Stmt.declares, Expr.vars], allIntS_wt _ (by decide +kernel),
    by simp [LoopsOK, Stmt.straight, Stmt.assigned],
    by simp [Levels], start_ok _ fun _ _ h => by cases h; decide,
    by decide +kernel, by decide +kernel, by decide +kernel⟩

/-- `for (i = 0; i < 5; i += 2) { s = s + 1; }` runs three times; the simplified program adds `5 / 2`. -/
theorem simplifyStmt_step_fails : ∃ (V : List Nat) (t t' : Stmt Unit) (σ : Env Unit), WS V t ∧ WTS i32 i32 t ∧
    NoStale [] t ∧ Levels (fun _ => 0) 0 t ∧ EnvOK i32 i32 σ ∧ simplifyStmt trivialFlt t = some t' ∧
    out 20 t σ = some (.i 3) ∧ out 20 t' σ = some (.i 2) :=
  ⟨[0], .loop .int32 1 ‹0› ‹5› ‹2› (.assign .int32 0 ((v 0) +ₑ ‹1›)) ;; .store .int32 0 ‹0› (v 0),
    .ite (.cmp .lt ‹0› ‹5›) (.assign .int32 0 ((v 0) +ₑ ‹2›)) .skip ;; .store .int32 0 ‹0› (v 0),
    start fun _ => some 0,
    by simp [WS, Stmt.declares, Expr.vars], allIntS_wt _ (by decide +kernel),
    by simp [NoStale], by simp [Levels], start_ok _ fun _ _ h => by cases h; decide,
    by decide +kernel, by decide +kernel, by decide +kernel⟩

/-- `for (i = 0; i < 3; i++) { s = 0; s = s + 1; }` leaves one in `s`; the simplified program leaves three. -/
theorem simplifyStmt_reset_fails : ∃ (V : List Nat) (t t' : Stmt Unit) (σ : Env Unit), WS V t ∧ WTS i32 i32 t ∧
    NoStale [] t ∧ Levels (fun _ => 0) 0 t ∧ EnvOK i32 i32 σ ∧ simplifyStmt trivialFlt t = some t' ∧
    out 20 t σ = some (.i 1) ∧ out 20 t' σ = some (.i 3) :=
  ⟨[0], .loop .int32 1 ‹0› ‹3› ‹1› (.assign .int32 0 ‹0› ;; .assign .int32 0 ((v 0) +ₑ ‹1›)) ;; .store .int32 0 ‹0› (v 0),
    .ite (.cmp .lt ‹0› ‹3›) (.assign .int32 0 ‹0› ;; .assign .int32 0 ((v 0) +ₑ ‹3›)) .skip ;; .store .int32 0 ‹0› (v 0),
    start fun _ => some 0,
    by simp [WS, Stmt.declares, Expr.vars], allIntS_wt _ (by decide +kernel),
    by simp [NoStale], by simp [Levels], start_ok _ fun _ _ h => by cases h; decide,
    by decide +kernel, by decide +kernel, by decide +kernel⟩

/-- `for (i = x; i < 4; i++) { x = x + 1; z = z + 1; }` with `x = 0`: the number of iterations `4 - x` is evaluated
again after `x` has changed. -/
theorem simplifyStmt_bound_assigned_fails : ∃ (V : List Nat) (t t' : Stmt Unit) (σ : Env Unit), WS V t ∧ WTS i32 i32 t ∧
    NoStale [] t ∧ Levels (fun _ => 0) 0 t ∧ EnvOK i32 i32 σ ∧ simplifyStmt trivialFlt t = some t' ∧
    out 20 t σ = some (.i 4) ∧ out 20 t' σ = some (.i 0) :=
  ⟨[0, 1], .loop .int32 2 (v 0) ‹4› ‹1› (.assign .int32 0 ((v 0) +ₑ ‹1›) ;; .assign .int32 1 ((v 1) +ₑ ‹1›)) ;; .store .int32 0 ‹0› (v 1),
    .ite (.cmp .lt (v 0) ‹4›) (.assign .int32 0 ((v 0) +ₑ (.arith .sub ‹4› (v 0))) ;; .assign .int32 1 ((v 1) +ₑ (.arith .sub ‹4› (v 0)))) .skip ;;
      .store .int32 0 ‹0› (v 1),
    start fun _ => some 0,
    by simp [WS, Stmt.declares, Expr.vars], allIntS_wt _ (by decide +kernel),
    by simp [NoStale], by simp [Levels], start_ok _ fun _ _ h => by cases h; decide,
    by decide +kernel, by decide +kernel, by decide +kernel⟩

/-- A variable declared twice, first deeper: `{ while (i < 1) { int b = 0; i = i + 1; } } { int b = a; while (j < 2)
{ A[0] = b; b = b + 1; j = j + 1; } }`. The second `b` changes in a loop but is not found to, because the level of
the first declaration is used: it is taken to be a copy of `a`, and the loop stores `a`. -/
theorem simplifyStmt_redeclared_fails : ∃ (V : List Nat) (t t' : Stmt Unit) (σ : Env Unit), WS V t ∧ WTS i32 i32 t ∧
    NoStale [] t ∧ LoopsOK i32 [] t ∧ EnvOK i32 i32 σ ∧ simplifyStmt trivialFlt t = some t' ∧
    out 20 t σ = some (.i 1) ∧ out 20 t' σ = some (.i 0) :=
  ⟨[0, 1, 2],
    .scope (.while (.cmp .lt (v 1) ‹1›) (.decl 0 .int32 3 ‹0› ;; .store .int32 1 ‹0› (v 3) ;; .assign .int32 1 ((v 1) +ₑ ‹1›))) ;;
    .scope (.decl 1 .int32 3 (v 0) ;;
      .while (.cmp .lt (v 2) ‹2›) (.store .int32 0 ‹0› (v 3) ;; .assign .int32 3 ((v 3) +ₑ ‹1›) ;; .assign .int32 2 ((v 2) +ₑ ‹1›))),
    .scope (.while (.cmp .lt (v 1) ‹1›) (.decl 0 .int32 3 ‹0› ;; .store .int32 1 ‹0› (v 3) ;; .assign .int32 1 ((v 1) +ₑ ‹1›))) ;;
    .scope (.decl 1 .int32 3 (v 0) ;;
      .while (.cmp .lt (v 2) ‹2›) (.store .int32 0 ‹0› (v 0) ;; .assign .int32 3 ((v 0) +ₑ ‹1›) ;; .assign .int32 2 ((v 2) +ₑ ‹1›))),
    start fun _ => some 0,
    by simp [WS, Stmt.declares, Expr.vars], allIntS_wt _ (by decide +kernel),
    by simp [NoStale, Stmt.copies, Stmt.assigned, Expr.mayCopy, Stmt.used, Expr.vars], by simp [LoopsOK, Stmt.straight, Stmt.assigned],
    start_ok _ fun _ _ h => by cases h; decide,
    by decide +kernel, by decide +kernel, by decide +kernel⟩

/-- `int8 x = y; A[0] = x` with `y` a 32-bit variable: `x` is replaced by `y`, which keeps the bits that `x` cuts off. -/
theorem simplifyStmt_narrowing_copy_fails : ∃ (V : List Nat) (t t' : Stmt Unit) (σ : Env Unit), WS V t ∧
    NoStale [] t ∧ Levels (fun _ => 0) 0 t ∧ LoopsOK i32 [] t ∧ EnvOK i32 i32 σ ∧ simplifyStmt trivialFlt t = some t' ∧
    out 20 t σ = some (.i 44) ∧ out 20 t' σ = some (.i 300) :=
  ⟨[0], .decl 0 .int8 1 (v 0) ;; .store .int32 0 ‹0› (.var .int8 1), .skip ;; .store .int32 0 ‹0› (v 0),
    start fun _ => some 300,
    by simp [WS, Stmt.declares, Expr.vars], by simp [NoStale], by simp [Levels], by simp [LoopsOK], start_ok _ fun _ _ h => by cases h; decide,
    by decide +kernel, by decide +kernel, by decide +kernel⟩

end Samples

end Verif.IR
