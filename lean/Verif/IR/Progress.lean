import Verif.IR.Simplify
/-! The simplifier as a whole: refinement, and the cases in which it cannot fail. -/
namespace Verif.IR
open Verif.Types

variable {F : Type} {vk ak : Nat → Kind} {A : Flt F}

theorem simp_refines (hA : FltLaws A) (n : Nat) : ∀ (e e' : Expr F) (k : Kind), simp A n e = some e' → WT vk ak e k →
    Refines vk ak A k e e' := by
  induction n with
  | zero => intro e e' k h; cases h
  | succ n ih =>
    intro e e' k h ht
    cases ht with
    | lit hv => cases h; exact Refines.refl (.lit hv)
    | var => cases h; exact Refines.refl .var
    | @arith op a b k hk ha hb =>
      replace h : ((simp A n a).bind fun a => (simp A n b).bind fun b => match op with
        | .add => addRules A (simp A n) a b
        | .sub => subRules A a b
        | .mul => mulRules A (simp A n) a b
        | .div => divRules A a b
        | op => some (.arith op a b)) = some e' := h
      obtain ⟨a', ha', h⟩ := bind_some_iff h
      obtain ⟨b', hb', h⟩ := bind_some_iff h
      have h1 := ih a a' k ha' ha
      have h2 := ih b b' k hb' hb
      refine (Refines.arith (op := op) hk ha hb h1 h2).trans ?_
      cases op with
      | add => exact addRules_ok hA (fun x y hxy hx => ih x y k hxy hx) hk h1.1 h2.1 h
      | sub => exact subRules_ok hA hk h1.1 h2.1 h
      | mul => exact mulRules_ok hA (fun x y hxy hx => ih x y k hxy hx) hk h1.1 h2.1 h
      | div => exact divRules_ok hA hk h1.1 h2.1 h
      | rem => cases h; exact Refines.refl (.arith hk h1.1 h2.1)
      | min => cases h; exact Refines.refl (.arith hk h1.1 h2.1)
      | max => cases h; exact Refines.refl (.arith hk h1.1 h2.1)
    | @cmp op a b k ha hb =>
      obtain ⟨a', ha', h⟩ := bind_some_iff h
      obtain ⟨b', hb', h⟩ := bind_some_iff h
      cases h
      have h1 := ih a a' k ha' ha
      have h2 := ih b b' k hb' hb
      refine ⟨.cmp h1.1 h2.1, fun env he v hv => ?_⟩
      rw [eval_cmp ha hb] at hv
      obtain ⟨x, hx, hv⟩ := bind_some_iff hv
      obtain ⟨y, hy, hv⟩ := bind_some_iff hv
      rw [eval_cmp h1.1 h2.1, h1.2 env he x hx, h2.2 env he y hy]
      exact hv
    | @neg a k hk ha =>
      obtain ⟨a', ha', rfl⟩ := Option.map_eq_some_iff.1 h
      have h1 := ih a a' k ha' ha
      refine ⟨.neg hk h1.1, fun env he v hv => ?_⟩
      rw [eval_neg ha] at hv
      obtain ⟨x, hx, hv⟩ := bind_some_iff hv
      rw [eval_neg h1.1, h1.2 env he x hx]
      exact hv
    | @not a ha =>
      obtain ⟨a', ha', rfl⟩ := Option.map_eq_some_iff.1 h
      have h1 := ih a a' _ ha' ha
      refine ⟨.not h1.1, fun env he v hv => ?_⟩
      simp only [eval] at hv
      split at hv
      · rename_i hx
        simp only [eval, h1.2 env he _ hx]
        exact hv
      · cases hv
    | @and a b ha hb =>
      obtain ⟨a', ha', h⟩ := bind_some_iff h
      obtain ⟨b', hb', h⟩ := bind_some_iff h
      have h1 := ih a a' _ ha' ha
      have h2 := ih b b' _ hb' hb
      refine Refines.trans ⟨.and h1.1 h2.1, fun env he v hv => ?_⟩ (andRules_ok h1.1 h2.1 h)
      simp only [eval] at hv
      split at hv
      · rename_i hx
        simp only [eval, h1.2 env he _ hx]
        exact h2.2 env he v hv
      · rename_i hx
        simp only [eval, h1.2 env he _ hx]
        exact hv
      · cases hv
    | @or a b ha hb =>
      obtain ⟨a', ha', h⟩ := bind_some_iff h
      obtain ⟨b', hb', h⟩ := bind_some_iff h
      have h1 := ih a a' _ ha' ha
      have h2 := ih b b' _ hb' hb
      refine Refines.trans ⟨.or h1.1 h2.1, fun env he v hv => ?_⟩ (orRules_ok h1.1 h2.1 h)
      simp only [eval] at hv
      split at hv
      · rename_i hx
        simp only [eval, h1.2 env he _ hx]
        exact hv
      · rename_i hx
        simp only [eval, h1.2 env he _ hx]
        exact h2.2 env he v hv
      · cases hv
    | @cast a k1 k' hk ha =>
      obtain ⟨a', ha', h⟩ := bind_some_iff h
      have h1 := ih a a' _ ha' ha
      refine Refines.trans ⟨.cast hk h1.1, fun env he v hv => ?_⟩ (castRules_ok hk h1.1 h)
      rw [eval_cast ha] at hv
      obtain ⟨x, hx, hv⟩ := bind_some_iff hv
      rw [eval_cast h1.1, h1.2 env he x hx]
      exact hv
    | @load arr loc k hi hl =>
      obtain ⟨a', ha', rfl⟩ := Option.map_eq_some_iff.1 h
      have h1 := ih loc a' _ ha' hl
      refine ⟨.load hi h1.1, fun env he v hv => ?_⟩
      simp only [eval] at hv
      split at hv
      · rename_i hx
        simp only [eval, h1.2 env he _ hx]
        exact hv
      · cases hv

/-! ### The simplifier does not fail -/

theorem AllDef.eval {env : Env F} {e : Expr F} (h : AllDef A env e) : (eval A env e).isSome := by
  cases e with
  | lit => exact h
  | var => exact h
  | arith => exact h.2.2
  | cmp => exact h.2.2
  | neg => exact h.2
  | not => exact h.2
  | and => exact h.2.2
  | or => exact h.2.2
  | cast => exact h.2
  | load => exact h.2

theorem Refines.isSome {k : Kind} {env : Env F} (he : EnvOK vk ak env) {e e' : Expr F} (h : Refines vk ak A k e e')
    (hs : (Verif.IR.eval A env e).isSome) : (Verif.IR.eval A env e').isSome := by
  obtain ⟨v, hv⟩ := Option.isSome_iff_exists.1 hs
  rw [h.2 env he v hv]; rfl

/-- The rule succeeded with an expression that is no larger and all of whose parts have values. -/
def Good (A : Flt F) (env : Env F) (m : Nat) (r : Option (Expr F)) : Prop :=
  ∃ e', r = some e' ∧ AllDef A env e' ∧ e'.size ≤ m

theorem fold_lit {op : AOp} {ka kb : Kind} {va vb : Val F} {e' : Expr F} (h : foldArith op ka va kb vb = some e') :
    ∃ k v, e' = .lit k v := by
  unfold foldArith at h
  split at h
  · split at h
    · split at h <;> first | (cases h; exact ⟨_, _, rfl⟩) | cases h
    · cases h
  · cases h

theorem addRules_good (hA : FltLaws A) {k : Kind} {env : Env F} (he : EnvOK vk ak env) {again : Expr F → Option (Expr F)} {m : Nat}
    (hagain : ∀ x y, again x = some y → WT vk ak x k → Refines vk ak A k x y)
    (hgood : ∀ x, WT vk ak x k → AllDef A env x → x.size ≤ m → Good A env x.size (again x))
    {a b : Expr F} (hk : numeric k) (ha : WT vk ak a k) (hb : WT vk ak b k) (hs : AllDef A env (.arith .add a b)) (hm : a.size ≤ m) :
    Good A env (a.size + b.size + 1) (addRules A again a b) := by
  unfold addRules
  split
  · rename_i e hf
    obtain ⟨l, hl, hf⟩ := bind_some_iff hf
    obtain ⟨k, v, rfl⟩ := fold_lit hf
    exact ⟨_, rfl, rfl, by simp [Expr.size]⟩
  · have key : ∀ {op : AOp} {c : Expr F} {k' : Kind} {d x r : Int}, reassoc op a b = some (c, k', d, x) →
        Refines vk ak A k (.arith .add a b) (.arith .add c (.lit k' (.i (wrap k' r)))) →
        Good A env (a.size + b.size + 1) (again (.arith .add c (.lit k' (.i (wrap k' r))))) := by
      intro op c k' d x r hr h1
      obtain ⟨rfl, rfl, rfl, hint, hc⟩ := reassoc_inv ha hb hr
      have := hgood (.arith .add c (.lit k' (.i (wrap k' r)))) h1.1 ⟨hs.1.1, rfl, h1.isSome he hs.2.2⟩
        (by simpa [Expr.size] using hm)
      obtain ⟨e', h2, h3, h4⟩ := this
      exact ⟨e', h2, h3, by simp only [Expr.size] at h4 ⊢; omega⟩
    split
    · rename_i c k' d x hr
      exact key hr (reassoc_ok (A := A) (op := .add) (op' := .add) (r := d + x) hk ha hb hr (by
        intro cc hint
        show some (Val.i (wrap k (wrap k (cc + d) + x))) = some (Val.i (wrap k (cc + wrap k (d + x))))
        rw [wrap_add_left, wrap_add_right, Int.add_assoc]) hop_add)
    · split
      · rename_i c k' d x hr
        exact key hr (reassoc_ok (A := A) (op := .add) (op' := .add) (r := x - d) hk ha hb hr (by
          intro cc hint
          show some (Val.i (wrap k (wrap k (cc - d) + x))) = some (Val.i (wrap k (cc + wrap k (x - d))))
          rw [wrap_add_left, wrap_add_right, show cc - d + x = cc + (x - d) by omega]) hop_sub)
      · have h0 : ∀ e, e = a ∨ e = b ∨ e = .arith .add a b → Good A env (a.size + b.size + 1) (some e) := by
          intro e h
          rcases h with h | h | h <;> subst h
          · exact ⟨_, rfl, hs.1, by omega⟩
          · exact ⟨_, rfl, hs.2.1, by omega⟩
          · exact ⟨_, rfl, hs, by simp [Expr.size]⟩
        split
        · split
          · exact h0 _ (by simp)
          · split
            · split
              · exact h0 _ (by simp)
              · exact h0 _ (by simp)
            · exact h0 _ (by simp)
        · split
          · exact h0 _ (by simp)
          · exact h0 _ (by simp)
        · exact h0 _ (by simp)

theorem subRules_good (hA : FltLaws A) {k : Kind} {env : Env F} (he : EnvOK vk ak env)
    {a b : Expr F} (hk : numeric k) (ha : WT vk ak a k) (hb : WT vk ak b k) (hs : AllDef A env (.arith .sub a b)) :
    Good A env (a.size + b.size + 1) (subRules A a b) := by
  obtain ⟨e', h⟩ : ∃ e', subRules A a b = some e' := by
    unfold subRules
    repeat' split
    all_goals exact ⟨_, rfl⟩
  have hr := subRules_ok hA hk ha hb h
  have hev := hr.isSome he hs.2.2
  refine ⟨e', h, ?_⟩
  unfold subRules at h
  split at h
  · rename_i e hf
    cases h
    obtain ⟨l, hl, hf⟩ := bind_some_iff hf
    obtain ⟨k, v, rfl⟩ := fold_lit hf
    exact ⟨rfl, by simp [Expr.size]⟩
  · have h0 : ∀ e, e = a ∨ e = .neg b ∨ e = .arith .sub a b → some e = some e' → AllDef A env e' ∧ e'.size ≤ a.size + b.size + 1 := by
      intro e h h'
      cases h'
      rcases h with h | h | h <;> subst h
      · exact ⟨hs.1, by omega⟩
      · exact ⟨⟨hs.2.1, hev⟩, by simp only [Expr.size]; omega⟩
      · exact ⟨hs, by simp [Expr.size]⟩
    split at h
    · split at h
      · exact h0 _ (by simp) h
      · split at h
        · split at h
          · exact h0 _ (by simp) h
          · exact h0 _ (by simp) h
        · exact h0 _ (by simp) h
    · split at h
      · exact h0 _ (by simp) h
      · exact h0 _ (by simp) h
    · exact h0 _ (by simp) h

theorem mulRules_good (hA : FltLaws A) {k : Kind} {env : Env F} (he : EnvOK vk ak env) {again : Expr F → Option (Expr F)} {m : Nat}
    (hgood : ∀ x, WT vk ak x k → AllDef A env x → x.size ≤ m → Good A env x.size (again x))
    {a b : Expr F} (hk : numeric k) (ha : WT vk ak a k) (hb : WT vk ak b k) (hs : AllDef A env (.arith .mul a b)) (hm : a.size ≤ m) :
    Good A env (a.size + b.size + 1) (mulRules A again a b) := by
  unfold mulRules
  split
  · rename_i e hf
    obtain ⟨l, hl, hf⟩ := bind_some_iff hf
    obtain ⟨k, v, rfl⟩ := fold_lit hf
    exact ⟨_, rfl, rfl, by simp [Expr.size]⟩
  · split
    · rename_i c k' d x hr
      have h1 := reassoc_ok (A := A) (op := .mul) (op' := .mul) (r := d * x) hk ha hb hr (by
        intro cc hint
        show some (Val.i (wrap k (wrap k (cc * d) * x))) = some (Val.i (wrap k (cc * wrap k (d * x))))
        rw [wrap_mul_left, wrap_mul_right, Int.mul_assoc]) hop_mul
      obtain ⟨rfl, rfl, rfl, hint, hc⟩ := reassoc_inv ha hb hr
      obtain ⟨e', h2, h3, h4⟩ := hgood (.arith .mul c (.lit k' (.i (wrap k' (d * x))))) h1.1 ⟨hs.1.1, rfl, h1.isSome he hs.2.2⟩
        (by simpa [Expr.size] using hm)
      exact ⟨e', h2, h3, by simp only [Expr.size] at h4 ⊢; omega⟩
    · have h0 : ∀ e, e = a ∨ e = b ∨ e = .arith .mul a b → Good A env (a.size + b.size + 1) (some e) := by
        intro e h
        rcases h with h | h | h <;> subst h
        · exact ⟨_, rfl, hs.1, by omega⟩
        · exact ⟨_, rfl, hs.2.1, by omega⟩
        · exact ⟨_, rfl, hs, by simp [Expr.size]⟩
      split
      · split
        · exact h0 _ (by simp)
        · split
          · exact h0 _ (by simp)
          · split
            · split
              · exact h0 _ (by simp)
              · split
                · exact h0 _ (by simp)
                · exact h0 _ (by simp)
            · exact h0 _ (by simp)
      · split
        · exact h0 _ (by simp)
        · split
          · exact h0 _ (by simp)
          · exact h0 _ (by simp)
      · exact h0 _ (by simp)

theorem divRules_good {k : Kind} {env : Env F}
    {a b : Expr F} (ha : WT vk ak a k) (hb : WT vk ak b k) (hs : AllDef A env (.arith .div a b)) :
    Good A env (a.size + b.size + 1) (divRules A a b) := by
  have h0 : ∀ e, e = a ∨ e = .arith .div a b → Good A env (a.size + b.size + 1) (some e) := by
    intro e h
    rcases h with h | h <;> subst h
    · exact ⟨_, rfl, hs.1, by omega⟩
    · exact ⟨_, rfl, hs, by simp [Expr.size]⟩
  have hev := hs.2.2
  rw [eval_arith ha hb] at hev
  unfold divRules
  split
  · rename_i ka x kb y
    split
    · split
      · rename_i hy
        subst hy
        simp [eval, arithVal] at hev
      · exact ⟨_, rfl, rfl, by simp [Expr.size]⟩
    · split
      · exact h0 _ (by simp)
      · exact h0 _ (by simp)
  · split
    · exact h0 _ (by simp)
    · exact h0 _ (by simp)
  · exact h0 _ (by simp)

theorem valOK_bool_lit {e : Val F} (h : valOK .bool e) : ∃ x, e = .b x := by
  cases e with
  | b x => exact ⟨x, rfl⟩
  | i x => exact absurd h.1 (by decide)
  | f x => exact absurd h (by simp [valOK]; decide)

theorem orRules_good {env : Env F} {a b : Expr F} (ha : WT vk ak a .bool) (hb : WT vk ak b .bool) (hs : AllDef A env (.or a b)) :
    Good A env (a.size + b.size + 1) (orRules a b) := by
  have h0 : ∀ e, e = a ∨ e = b ∨ e = .or a b → Good A env (a.size + b.size + 1) (some e) := by
    intro e h
    rcases h with h | h | h <;> subst h
    · exact ⟨_, rfl, hs.1, by omega⟩
    · exact ⟨_, rfl, hs.2.1, by omega⟩
    · exact ⟨_, rfl, hs, by simp [Expr.size]⟩
  unfold orRules
  split
  · obtain ⟨rfl, hv⟩ := ha.lit_inv
    obtain ⟨x, rfl⟩ := valOK_bool_lit hv
    cases x
    · exact h0 _ (by simp)
    · exact h0 _ (by simp)
  · obtain ⟨rfl, hv⟩ := hb.lit_inv
    obtain ⟨x, rfl⟩ := valOK_bool_lit hv
    cases x
    · exact h0 _ (by simp)
    · exact h0 _ (by simp)
  · exact h0 _ (by simp)

theorem andRules_good {env : Env F} {a b : Expr F} (ha : WT vk ak a .bool) (hb : WT vk ak b .bool) (hs : AllDef A env (.and a b)) :
    Good A env (a.size + b.size + 1) (andRules a b) := by
  have h0 : ∀ e, e = a ∨ e = b ∨ e = .and a b → Good A env (a.size + b.size + 1) (some e) := by
    intro e h
    rcases h with h | h | h <;> subst h
    · exact ⟨_, rfl, hs.1, by omega⟩
    · exact ⟨_, rfl, hs.2.1, by omega⟩
    · exact ⟨_, rfl, hs, by simp [Expr.size]⟩
  unfold andRules
  split
  · obtain ⟨rfl, hv⟩ := ha.lit_inv
    obtain ⟨x, rfl⟩ := valOK_bool_lit hv
    cases x
    · exact h0 _ (by simp)
    · exact h0 _ (by simp)
  · obtain ⟨rfl, hv⟩ := hb.lit_inv
    obtain ⟨x, rfl⟩ := valOK_bool_lit hv
    cases x
    · exact h0 _ (by simp)
    · exact h0 _ (by simp)
  · exact h0 _ (by simp)

theorem size_pos (e : Expr F) : 0 < e.size := by cases e <;> simp [Expr.size]

theorem simp_good (hA : FltLaws A) {env : Env F} (he : EnvOK vk ak env) (n : Nat) : ∀ (e : Expr F) (k : Kind), WT vk ak e k →
    AllDef A env e → e.size ≤ n → Good A env e.size (simp A n e) := by
  induction n with
  | zero => intro e k _ _ h; have := size_pos e; omega
  | succ n ih =>
    intro e k ht hd hn
    have href := fun (e e' : Expr F) (k : Kind) => simp_refines (vk := vk) (ak := ak) hA n e e' k
    cases ht with
    | lit hv => exact ⟨_, rfl, hd, Nat.le_refl _⟩
    | var => exact ⟨_, rfl, hd, Nat.le_refl _⟩
    | @arith op a b k hk ha hb =>
      simp only [Expr.size] at hn
      obtain ⟨a', ha', hda, hsa⟩ := ih a k ha hd.1 (by omega)
      obtain ⟨b', hb', hdb, hsb⟩ := ih b k hb hd.2.1 (by omega)
      have h1 := href a a' k ha' ha
      have h2 := href b b' k hb' hb
      have hs : AllDef A env (.arith op a' b') := ⟨hda, hdb, (Refines.arith (op := op) hk ha hb h1 h2).isSome he hd.2.2⟩
      have hval : simp A (n + 1) (.arith op a b) = (fun op : AOp => match op with
        | .add => addRules A (simp A n) a' b'
        | .sub => subRules A a' b'
        | .mul => mulRules A (simp A n) a' b'
        | .div => divRules A a' b'
        | op => some (.arith op a' b')) op := by
        show ((simp A n a).bind fun a => (simp A n b).bind fun b => _) = _
        rw [ha', hb']; rfl
      rw [hval]
      have hle : ∀ r, Good A env (a'.size + b'.size + 1) r → Good A env (Expr.arith op a b).size r := by
        rintro r ⟨e', h3, h4, h5⟩
        exact ⟨e', h3, h4, by simp only [Expr.size]; omega⟩
      apply hle
      cases op with
      | add => exact addRules_good hA he (fun x y hxy hx => href x y k hxy hx) (fun x hx hdx hxs => ih x k hx hdx hxs) hk h1.1 h2.1 hs (by omega)
      | sub => exact subRules_good hA he hk h1.1 h2.1 hs
      | mul => exact mulRules_good hA he (fun x hx hdx hxs => ih x k hx hdx hxs) hk h1.1 h2.1 hs (by omega)
      | div => exact divRules_good h1.1 h2.1 hs
      | rem => exact ⟨_, rfl, hs, by simp [Expr.size]⟩
      | min => exact ⟨_, rfl, hs, by simp [Expr.size]⟩
      | max => exact ⟨_, rfl, hs, by simp [Expr.size]⟩
    | @cmp op a b k ha hb =>
      simp only [Expr.size] at hn
      obtain ⟨a', ha', hda, hsa⟩ := ih a k ha hd.1 (by omega)
      obtain ⟨b', hb', hdb, hsb⟩ := ih b k hb hd.2.1 (by omega)
      have hr : simp A (n + 1) (.cmp op a b) = some (.cmp op a' b') := by
        show ((simp A n a).bind fun a => (simp A n b).bind fun b => _) = _
        rw [ha', hb']; rfl
      exact ⟨_, hr, ⟨hda, hdb, (simp_refines hA _ _ _ _ hr (WT.cmp ha hb)).isSome he hd.2.2⟩, by simp only [Expr.size]; omega⟩
    | @neg a k hk ha =>
      simp only [Expr.size] at hn
      obtain ⟨a', ha', hda, hsa⟩ := ih a k ha hd.1 (by omega)
      have hr : simp A (n + 1) (.neg a) = some (.neg a') := by
        show (simp A n a).map _ = _
        rw [ha']; rfl
      exact ⟨_, hr, ⟨hda, (simp_refines hA _ _ _ _ hr (WT.neg hk ha)).isSome he hd.2⟩, by simp only [Expr.size]; omega⟩
    | @not a ha =>
      simp only [Expr.size] at hn
      obtain ⟨a', ha', hda, hsa⟩ := ih a _ ha hd.1 (by omega)
      have hr : simp A (n + 1) (.not a) = some (.not a') := by
        show (simp A n a).map _ = _
        rw [ha']; rfl
      exact ⟨_, hr, ⟨hda, (simp_refines hA _ _ _ _ hr (WT.not ha)).isSome he hd.2⟩, by simp only [Expr.size]; omega⟩
    | @and a b ha hb =>
      simp only [Expr.size] at hn
      obtain ⟨a', ha', hda, hsa⟩ := ih a _ ha hd.1 (by omega)
      obtain ⟨b', hb', hdb, hsb⟩ := ih b _ hb hd.2.1 (by omega)
      have h1 := href a a' _ ha' ha
      have h2 := href b b' _ hb' hb
      have hs : AllDef A env (.and a' b') := by
        refine ⟨hda, hdb, ?_⟩
        obtain ⟨x, hx⟩ := Option.isSome_iff_exists.1 hda.eval
        obtain ⟨xb, rfl⟩ := eval_bool he h1.1 hx
        simp only [Verif.IR.eval, hx]
        cases xb
        · rfl
        · exact hdb.eval
      have hr : simp A (n + 1) (.and a b) = andRules a' b' := by
        show ((simp A n a).bind fun a => (simp A n b).bind fun b => _) = _
        rw [ha', hb']; rfl
      rw [hr]
      obtain ⟨e', h3, h4, h5⟩ := andRules_good h1.1 h2.1 hs
      exact ⟨e', h3, h4, by simp only [Expr.size]; omega⟩
    | @or a b ha hb =>
      simp only [Expr.size] at hn
      obtain ⟨a', ha', hda, hsa⟩ := ih a _ ha hd.1 (by omega)
      obtain ⟨b', hb', hdb, hsb⟩ := ih b _ hb hd.2.1 (by omega)
      have h1 := href a a' _ ha' ha
      have h2 := href b b' _ hb' hb
      have hs : AllDef A env (.or a' b') := by
        refine ⟨hda, hdb, ?_⟩
        obtain ⟨x, hx⟩ := Option.isSome_iff_exists.1 hda.eval
        obtain ⟨xb, rfl⟩ := eval_bool he h1.1 hx
        simp only [Verif.IR.eval, hx]
        cases xb
        · exact hdb.eval
        · rfl
      have hr : simp A (n + 1) (.or a b) = orRules a' b' := by
        show ((simp A n a).bind fun a => (simp A n b).bind fun b => _) = _
        rw [ha', hb']; rfl
      rw [hr]
      obtain ⟨e', h3, h4, h5⟩ := orRules_good h1.1 h2.1 hs
      exact ⟨e', h3, h4, by simp only [Expr.size]; omega⟩
    | @cast a k1 k' hk ha =>
      simp only [Expr.size] at hn
      obtain ⟨a', ha', hda, hsa⟩ := ih a _ ha hd.1 (by omega)
      have hr : simp A (n + 1) (.cast a k) = castRules A k a' := by
        show (simp A n a).bind _ = _
        rw [ha']; rfl
      have hsome : ∃ e', castRules A k a' = some e' := by
        unfold castRules
        split
        · simp only [convert]
          repeat' split
          all_goals exact ⟨_, rfl⟩
        · exact ⟨_, rfl⟩
      obtain ⟨e', he'⟩ := hsome
      have hev := (simp_refines hA (n + 1) _ _ _ (hr.trans he') (WT.cast hk ha)).isSome he hd.2
      refine ⟨e', hr.trans he', ?_⟩
      unfold castRules at he'
      split at he'
      · obtain ⟨r, _, rfl⟩ := Option.map_eq_some_iff.1 he'
        exact ⟨rfl, by simp [Expr.size]⟩
      · cases he'
        exact ⟨⟨hda, hev⟩, by simp only [Expr.size]; omega⟩
    | @load arr loc k hi hl =>
      simp only [Expr.size] at hn
      obtain ⟨a', ha', hda, hsa⟩ := ih loc _ hl hd.1 (by omega)
      have hr : simp A (n + 1) (.load (ak arr) arr loc) = some (.load (ak arr) arr a') := by
        show (simp A n loc).map _ = _
        rw [ha']; rfl
      exact ⟨_, hr, ⟨hda, (simp_refines hA _ _ _ _ hr (WT.load hi hl)).isSome he hd.2⟩, by simp only [Expr.size]; omega⟩

end Verif.IR
