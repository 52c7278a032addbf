import Verif.Props.Text

/-! # Replacing tokens in generated text -/

set_option autoImplicit false

namespace Sympkf.Text

open Spec

/-! ## `replace` on chunks -/

/-- `P` does not start inside `s` when `rest` follows. -/
def NoStart (P s rest : Str) : Prop := ∀ u, u ≠ [] → u <:+ s → ¬ P <+: u ++ rest

theorem replaceAux_skip (P new s rest : Str) : replaceAux P new s.length (s ++ rest) = replaceAux P new 0 rest := by
  induction s with
  | nil => rfl
  | cons c s ih => simpa [replaceAux] using ih

theorem replace_match {P : Str} (hP : P ≠ []) (new rest : Str) : replace P new (P ++ rest) = new ++ replace P new rest := by
  unfold replace
  cases P with
  | nil => exact absurd rfl hP
  | cons c P =>
    have h : (c :: P).isPrefixOf (c :: (P ++ rest)) = true := by
      rw [List.isPrefixOf_iff_prefix]; exact ⟨rest, rfl⟩
    simp only [List.cons_append, replaceAux, h, if_true, List.length_cons, Nat.add_sub_cancel]
    rw [replaceAux_skip]

theorem replace_noStart {P s rest : Str} (new : Str) (h : NoStart P s rest) :
    replace P new (s ++ rest) = s ++ replace P new rest := by
  unfold replace
  induction s with
  | nil => rfl
  | cons c s ih =>
    have h0 : P.isPrefixOf (c :: (s ++ rest)) = false := by
      rw [Bool.eq_false_iff, ne_eq, List.isPrefixOf_iff_prefix]
      exact h (c :: s) (by simp) (List.suffix_refl _)
    have ih := ih (fun u hu hs => h u hu (hs.trans (List.suffix_cons c s)))
    simp [replaceAux, h0, ih]

/-- Tokens of a partially rendered text. -/
inductive RTok
  | lit (s : Str)
  | call (f : AppliedFun)
  | done (f : AppliedFun)
  | step (x : Str)
  | stepDone (x : Str)

def RTok.text (code : AppliedFun → Str) (dxRule : Str → Str) : RTok → Str
  | .lit s => s
  | .call f => f.str
  | .done f => code f
  | .step x => 'd' :: x
  | .stepDone x => dxRule x

def rtext (code : AppliedFun → Str) (dxRule : Str → Str) (l : List RTok) : Str := l.flatMap (RTok.text code dxRule)

def RTok.isLit : RTok → Bool
  | .lit _ => true
  | _ => false

/-- Separation of partially rendered tokens. -/
def RSep : List RTok → Prop
  | [] => True
  | [_] => True
  | a :: b :: l =>
    (match a, b.isLit with
      | .lit s, false => ∃ c, s.getLast? = some c ∧ isSep c = true
      | .lit _, true => False
      | _, false => False
      | _, true => ∃ s c, b = .lit s ∧ s.head? = some c ∧ isSep c = true ∧ c ≠ '(') ∧ RSep (b :: l)

theorem replace_tokens {P : Str} (hP : P ≠ []) (new : Str) (code : AppliedFun → Str) (dxRule : Str → Str)
    (upd : RTok → RTok) (l : List RTok)
    (h : ∀ a r, (∃ p, l = p ++ a :: r) → (a.text code dxRule = P ∧ (upd a).text code dxRule = new) ∨
      ((upd a).text code dxRule = a.text code dxRule ∧ NoStart P (a.text code dxRule) (rtext code dxRule r))) :
    replace P new (rtext code dxRule l) = rtext code dxRule (l.map upd) := by
  induction l with
  | nil => rfl
  | cons a l ih =>
    have ih := ih (fun b r ⟨p, hp⟩ => h b r ⟨a :: p, by rw [hp]; rfl⟩)
    show replace P new (a.text code dxRule ++ rtext code dxRule l)
      = (upd a).text code dxRule ++ rtext code dxRule (l.map upd)
    rcases h a l ⟨[], rfl⟩ with ⟨h1, h2⟩ | ⟨h1, h2⟩
    · rw [h1, replace_match hP, ih, h2]
    · rw [replace_noStart new h2, ih, h1]

/-! ## calls -/

/-- The text begins with a call of a name on plain arguments. -/
def Bad (w : Str) : Prop :=
  ∃ r a z : Str, IsName r ∧ (∀ c ∈ a, c ≠ '(' ∧ c ≠ ')' ∧ c ≠ '\'') ∧ w = r ++ '(' :: (a ++ ')' :: z)

/-- parentheses and quotes of a text -/
def delims (w : Str) : Str := w.filter (fun c => c = '(' ∨ c = ')' ∨ c = '\'')

theorem delims_append (a b : Str) : delims (a ++ b) = delims a ++ delims b := by simp [delims]

theorem sep_delim {c : Char} (h : isSep c = false) : c ≠ '(' ∧ c ≠ ')' ∧ c ≠ '\'' := by
  refine ⟨?_, ?_, ?_⟩ <;> rintro rfl <;> revert h <;> decide

theorem delims_eq_nil {w : Str} (h : ∀ c ∈ w, c ≠ '(' ∧ c ≠ ')' ∧ c ≠ '\'') : delims w = [] := by
  unfold delims
  rw [List.filter_eq_nil_iff]
  intro c hc
  obtain ⟨h1, h2, h3⟩ := h c hc
  simp [h1, h2, h3]

theorem Bad.delims {w : Str} (h : Bad w) : ∃ z, Text.delims w = '(' :: ')' :: z := by
  obtain ⟨r, a, z, hr, ha, rfl⟩ := h
  refine ⟨Text.delims z, ?_⟩
  rw [delims_append, delims_eq_nil (fun c hc => sep_delim (hr.2 c hc))]
  show Text.delims ('(' :: (a ++ ')' :: z)) = _
  have : Text.delims ('(' :: (a ++ ')' :: z)) = '(' :: Text.delims (a ++ ')' :: z) := by simp [Text.delims]
  rw [this, delims_append, delims_eq_nil ha]
  simp [Text.delims]

theorem Bad.head {w : Str} (h : Bad w) : ∃ c, w.head? = some c ∧ isSep c = false := by
  obtain ⟨r, a, z, hr, ha, rfl⟩ := h
  cases r with
  | nil => exact absurd rfl hr.1
  | cons c r => exact ⟨c, rfl, hr.2 c (by simp)⟩

/-- If a text of names is followed by something that makes a call, that something begins with a name character or with
an opening parenthesis. -/
theorem Bad.next {u w : Str} (hu : ∀ c ∈ u, isSep c = false) (h : Bad (u ++ w)) :
    ∃ c, w.head? = some c ∧ (isSep c = false ∨ c = '(') := by
  obtain ⟨r, a, z, hr, ha, he⟩ := h
  rcases List.append_eq_append_iff.1 he with ⟨r', h1, h2⟩ | ⟨u', h1, h2⟩
  · cases r' with
    | nil => exact ⟨'(', by rw [h2]; rfl, Or.inr rfl⟩
    | cons c r' => exact ⟨c, by rw [h2]; rfl, Or.inl (hr.2 c (by rw [h1]; simp))⟩
  · cases u' with
    | nil => exact ⟨'(', by rw [List.nil_append] at h2; rw [← h2]; rfl, Or.inr rfl⟩
    | cons c u' =>
      simp only [List.cons_append, List.cons.injEq] at h2
      have := hu c (by rw [h1]; simp)
      rw [← h2.1] at this
      exact absurd this (by decide)

theorem suffix_split {u a b : Str} (h : u <:+ a ++ b) : u <:+ b ∨ ∃ u', u' ≠ [] ∧ u' <:+ a ∧ u = u' ++ b := by
  obtain ⟨p, hp⟩ := h
  rcases List.append_eq_append_iff.1 hp with ⟨a', h1, h2⟩ | ⟨b', h1, h2⟩
  · by_cases ha : a' = []
    · subst ha; left; rw [h2]; simp
    · exact Or.inr ⟨a', ha, ⟨p, h1.symm⟩, h2⟩
  · exact Or.inl ⟨b', h2.symm⟩

/-- What is required of an applied function. -/
structure FunOK (f : AppliedFun) : Prop where
  name : IsName f.name
  args : ∀ c ∈ joinArgs (f.args.map Arg.text), c ≠ '(' ∧ c ≠ ')' ∧ c ≠ '\''

/-- A rendered function contains no call on plain arguments, unless it is a bare name and something follows. -/
def Quiet (s : Str) : Prop :=
  (∀ c ∈ s, isSep c = false) ∨ ((∃ c, s.getLast? = some c ∧ isSep c = true) ∧ ∀ u w, u ≠ [] → u <:+ s → ¬ Bad (u ++ w))

def LitOK (s : Str) : Prop := ∀ c, isSep c = false → ¬ [c, '('] <:+: s

theorem suffix_getLast? {u s : Str} (hu : u ≠ []) (h : u <:+ s) : u.getLast? = s.getLast? := by
  obtain ⟨p, rfl⟩ := h
  rw [List.getLast?_append_of_ne_nil _ hu]

theorem head?_rtext_lit {code : AppliedFun → Str} {dxRule : Str → Str} {a b : RTok} {l : List RTok} (ha : a.isLit = false)
    (h : RSep (a :: b :: l)) :
    ∃ c, (rtext code dxRule (b :: l)).head? = some c ∧ isSep c = true ∧ c ≠ '(' := by
  have h1 := h.1
  cases hb : b.isLit with
  | false => cases a <;> simp_all [RTok.isLit]
  | true =>
    have : ∃ s c, b = .lit s ∧ s.head? = some c ∧ isSep c = true ∧ c ≠ '(' := by
      rw [hb] at h1; cases a <;> simp_all [RTok.isLit]
    obtain ⟨s, c, rfl, hc, h2⟩ := this
    refine ⟨c, ?_, h2⟩
    cases s with
    | nil => simp at hc
    | cons d s => simpa [rtext, RTok.text] using hc

theorem getLast?_lit {s : Str} {b : RTok} {l : List RTok} (h : RSep (.lit s :: b :: l)) :
    ∃ c, s.getLast? = some c ∧ isSep c = true := by
  have h1 := h.1
  cases hb : b.isLit with
  | false => simpa [hb] using h1
  | true => simp [hb] at h1

/-- A name that reaches the end of its token is not continued into a call. -/
theorem names_not_bad {code : AppliedFun → Str} {dxRule : Str → Str} {a : RTok} {l : List RTok}
    (ha : a.isLit = false) (h : RSep (a :: l)) {u : Str} (hu : ∀ c ∈ u, isSep c = false) :
    ¬ Bad (u ++ rtext code dxRule l) := by
  intro hb
  obtain ⟨c, hc, hc'⟩ := Bad.next hu hb
  cases l with
  | nil => simp [rtext] at hc
  | cons b l =>
    obtain ⟨d, hd, h1, h2⟩ := head?_rtext_lit (code := code) (dxRule := dxRule) ha h
    rw [hc] at hd
    obtain rfl := Option.some.inj hd
    rcases hc' with h3 | h3
    · rw [h1] at h3; exact absurd h3 (by decide)
    · exact h2 h3

theorem lit_not_bad {code : AppliedFun → Str} {dxRule : Str → Str} {s : Str} {l : List RTok} (hs : LitOK s)
    (h : RSep (.lit s :: l)) {u : Str} (hu : u ≠ []) (hus : u <:+ s) : ¬ Bad (u ++ rtext code dxRule l) := by
  intro hb
  by_cases hall : ∀ c ∈ u, isSep c = false
  · obtain ⟨c, hc, -⟩ := Bad.next hall hb
    cases l with
    | nil => simp [rtext] at hc
    | cons b l =>
      obtain ⟨d, hd, hd'⟩ := getLast?_lit h
      rw [← suffix_getLast? hu hus] at hd
      have := hall d (List.mem_of_getLast? hd)
      rw [hd'] at this; exact absurd this (by decide)
  · obtain ⟨r, a, z, hr, ha, he⟩ := hb
    rcases List.append_eq_append_iff.1 he with ⟨r', h1, h2⟩ | ⟨u', h1, h2⟩
    · exact hall (fun c hc => hr.2 c (by rw [h1]; simp [hc]))
    · cases u' with
      | nil => exact hall (fun c hc => hr.2 c (by simpa [h1] using hc))
      | cons c u' =>
        simp only [List.cons_append, List.cons.injEq] at h2
        obtain ⟨rfl, h2⟩ := h2
        obtain ⟨p, hp⟩ := hus
        have hne := hr.1
        have hlast := hr.2 _ (List.getLast_mem hne)
        apply hs _ hlast
        refine ⟨p ++ r.dropLast, u', ?_⟩
        have : r.dropLast ++ [r.getLast hne] = r := List.dropLast_append_getLast hne
        rw [← hp, h1]
        conv_rhs => rw [← this]
        simp

/-- Only inside the name of a call token can a plain call begin. -/
theorem bad_in_call {code : AppliedFun → Str} {dxRule : Str → Str} {a : RTok} {l : List RTok}
    (h : RSep (a :: l))
    (hlit : ∀ s, a = .lit s → LitOK s) (hcall : ∀ f, a = .call f → FunOK f)
    (hdone : ∀ f, a = .done f → Quiet (code f)) (hstep : ∀ x, a = .step x → ∀ c ∈ x, isSep c = false)
    (hsd : ∀ x, a ≠ .stepDone x)
    {u : Str} (hu : u ≠ []) (hus : u <:+ a.text code dxRule) (hb : Bad (u ++ rtext code dxRule l)) :
    ∃ f n, a = .call f ∧ n ≠ [] ∧ n <:+ f.name ∧
      u = n ++ ("(".toList ++ joinArgs (f.args.map Arg.text) ++ ")".toList) := by
  cases a with
  | lit s => exact absurd hb (lit_not_bad (hlit s rfl) h hu hus)
  | call f =>
    have hf := hcall f rfl
    simp only [RTok.text, AppliedFun.str, List.append_assoc] at hus
    rcases suffix_split hus with hus | ⟨n, hn, hns, rfl⟩
    · exfalso
      rcases suffix_split hus with hus | ⟨n, hn, hns, rfl⟩
      · obtain ⟨z, hz⟩ := hb.delims
        have : ∃ z, delims (u ++ rtext code dxRule l) = ')' :: z := by
          rcases suffix_split hus with hus | ⟨n, hn, hns, rfl⟩
          · have : u = ")".toList := by
              have e : ")".toList = [')'] := by decide
              rw [e] at hus ⊢
              rcases List.suffix_cons_iff.1 hus with h | h
              · exact h
              · exact absurd (List.eq_nil_of_suffix_nil h) hu
            subst this
            exact ⟨delims (rtext code dxRule l), by rw [delims_append]; simp [delims]⟩
          · refine ⟨delims (rtext code dxRule l), ?_⟩
            rw [delims_append, delims_append, delims_eq_nil (fun c hc => hf.args c (hns.subset hc))]
            simp [delims]
        obtain ⟨z', hz'⟩ := this
        rw [hz] at hz'
        simp at hz'
      · obtain ⟨c, hc, hc'⟩ := hb.head
        have e : "(".toList = ['('] := by decide
        rw [e] at hns
        rcases List.suffix_cons_iff.1 hns with h | h
        · subst h
          simp only [List.cons_append, List.head?_cons, Option.some.injEq] at hc
          subst hc; exact absurd hc' (by decide)
        · exact absurd (List.eq_nil_of_suffix_nil h) hn
    · exact ⟨f, n, rfl, hn, hns, by simp⟩
  | done f =>
    exfalso
    rcases hdone f rfl with hq | ⟨-, hq⟩
    · exact names_not_bad rfl h (fun c hc => hq c (hus.subset hc)) hb
    · exact hq u _ hu hus hb
  | step x =>
    exfalso
    refine names_not_bad rfl h (fun c hc => ?_) hb
    have := hus.subset hc
    simp only [RTok.text, List.mem_cons] at this
    rcases this with rfl | hc
    · decide
    · exact hstep x rfl c hc
  | stepDone x => exact absurd rfl (hsd x)

theorem str_bad {f : AppliedFun} (hf : FunOK f) (z : Str) : Bad (f.str ++ z) := by
  refine ⟨f.name, joinArgs (f.args.map Arg.text), z, hf.name, hf.args, ?_⟩
  have e1 : "(".toList = ['('] := by decide
  have e2 : ")".toList = [')'] := by decide
  simp [AppliedFun.str]

/-- Reading a call is unambiguous. -/
theorem call_unique {r r' a a' z z' : Str} (hr : ∀ c ∈ r, isSep c = false) (hr' : ∀ c ∈ r', isSep c = false)
    (ha : ∀ c ∈ a, c ≠ ')') (ha' : ∀ c ∈ a', c ≠ ')')
    (h : r ++ '(' :: (a ++ ')' :: z) = r' ++ '(' :: (a' ++ ')' :: z')) : r = r' ∧ a = a' ∧ z = z' := by
  obtain ⟨h1, h2⟩ := append_right_split (p := fun c => isSep c = false) hr hr' (by simp; decide) (by simp; decide) h
  simp only [List.cons.injEq, true_and] at h2
  obtain ⟨h3, h4⟩ := append_right_split (p := fun c => c ≠ ')') ha ha' (by simp) (by simp) h2
  exact ⟨h1, h3, by simpa using h4⟩

/-- mark `f` as rendered -/
def updCall (P : Str) : RTok → RTok
  | .call g => if g.str = P then .done g else .call g
  | a => a

/-- One pass of the function loop on tokens: exactly the calls with the text of `f` are replaced. -/
theorem replace_call {code : AppliedFun → Str} {dxRule : Str → Str} {l : List RTok} {f : AppliedFun} (hf : FunOK f)
    (hsep : RSep l)
    (hlit : ∀ s, RTok.lit s ∈ l → LitOK s) (hcall : ∀ g, RTok.call g ∈ l → FunOK g)
    (hdone : ∀ g, RTok.done g ∈ l → Quiet (code g)) (hstep : ∀ x, RTok.step x ∈ l → ∀ c ∈ x, isSep c = false)
    (hsd : ∀ x, RTok.stepDone x ∉ l)
    (hsuf : ∀ g, RTok.call g ∈ l → f.name <:+ g.name → f.name = g.name)
    (hcode : ∀ g, RTok.call g ∈ l → g.str = f.str → code g = code f) :
    replace f.str (code f) (rtext code dxRule l) = rtext code dxRule (l.map (updCall f.str)) := by
  have hne : f.str ≠ [] := by
    unfold AppliedFun.str
    have := hf.name.1
    simp [this]
  refine replace_tokens hne _ code dxRule _ l ?_
  rintro a r ⟨p, rfl⟩
  have hmem : a ∈ p ++ a :: r := by simp
  have hsep' : RSep (a :: r) := by
    clear * - hsep
    induction p with
    | nil => exact hsep
    | cons b p ih =>
      cases p with
      | nil => exact ih hsep.2
      | cons c p => exact ih hsep.2
  -- where the text of `f` may begin inside `a`
  have key : ∀ u, u ≠ [] → u <:+ a.text code dxRule → f.str <+: u ++ rtext code dxRule r →
      ∃ g, a = .call g ∧ g.str = f.str := by
    intro u hu hus hpre
    obtain ⟨z, hz⟩ := hpre
    have hb : Bad (u ++ rtext code dxRule r) := by rw [← hz]; exact str_bad hf z
    obtain ⟨g, n, rfl, hn, hns, rfl⟩ := bad_in_call hsep' (fun s hs => hlit s (hs ▸ hmem)) (fun g hg => hcall g (hg ▸ hmem))
      (fun g hg => hdone g (hg ▸ hmem)) (fun x hx => hstep x (hx ▸ hmem)) (fun x hx => hsd x (hx ▸ hmem)) hu hus hb
    refine ⟨g, rfl, ?_⟩
    have hg := hcall g hmem
    have e1 : "(".toList = ['('] := by decide
    have e2 : ")".toList = [')'] := by decide
    unfold AppliedFun.str at hz
    rw [e1, e2] at hz
    have hz' : f.name ++ '(' :: (joinArgs (f.args.map Arg.text) ++ ')' :: z)
        = n ++ '(' :: (joinArgs (g.args.map Arg.text) ++ ')' :: rtext code dxRule r) := by simpa using hz
    obtain ⟨h1, h2, -⟩ := call_unique hf.name.2 (fun c hc => hg.name.2 c (hns.subset hc))
      (fun c hc => (hf.args c hc).2.1) (fun c hc => (hg.args c hc).2.1) hz'
    have := hsuf g hmem (h1 ▸ hns)
    simp [AppliedFun.str, this, h2]
  by_cases hup : ∃ g, a = .call g ∧ g.str = f.str
  · obtain ⟨g, rfl, hg⟩ := hup
    left
    exact ⟨hg, by simp [updCall, hg, RTok.text, hcode g hmem hg]⟩
  · right
    refine ⟨?_, fun u hu hus hpre => hup (key u hu hus hpre)⟩
    cases a with
    | call g =>
      have : g.str ≠ f.str := fun h => hup ⟨g, rfl, h⟩
      simp [updCall, this]
    | lit s => rfl
    | done g => rfl
    | step x => rfl
    | stepDone x => rfl

/-! ## grid steps -/

def updStep (x : Str) : RTok → RTok
  | .step y => if y = x then .stepDone y else .step y
  | a => a

theorem RSep.tail {a : RTok} {l : List RTok} (h : RSep (a :: l)) : RSep l := by
  cases l with
  | nil => trivial
  | cons b l => exact h.2

theorem RSep.suffix {p l : List RTok} (h : RSep (p ++ l)) : RSep l := by
  induction p with
  | nil => exact h
  | cons b p ih => exact ih h.tail

/-- One pass of the loop over the grid steps on tokens. -/
theorem replace_step {code : AppliedFun → Str} {dxRule : Str → Str} {l : List RTok} {x : Str}
    (hx : ∀ c ∈ x, isSep c = false) (hsep : RSep l)
    (hfree : ∀ a ∈ l, a ≠ .step x → ¬ ('d' :: x) <:+: a.text code dxRule) :
    replace ('d' :: x) (dxRule x) (rtext code dxRule l) = rtext code dxRule (l.map (updStep x)) := by
  refine replace_tokens (by simp) _ code dxRule _ l ?_
  rintro a r ⟨p, rfl⟩
  by_cases ha : a = .step x
  · subst ha
    left; simp [RTok.text, updStep]
  · right
    constructor
    · cases a with
      | step y =>
        have : y ≠ x := fun h => ha (by rw [h])
        simp [updStep, this]
      | lit s => rfl
      | done g => rfl
      | call g => rfl
      | stepDone x => rfl
    · intro u hu hus hpre
      have hfr := hfree a (by simp) ha
      have hsep' : RSep (a :: r) := hsep.suffix
      have hxd : ∀ c ∈ 'd' :: x, isSep c = false := by
        intro c hc
        rcases List.mem_cons.1 hc with rfl | hc
        · decide
        · exact hx c hc
      obtain ⟨z, hz⟩ := hpre
      rcases List.append_eq_append_iff.1 hz with ⟨u', h1, h2⟩ | ⟨w, h1, h2⟩
      · exact hfr (List.IsInfix.trans (⟨[], u', by simpa using h1.symm⟩ : ('d' :: x) <:+: u) hus.isInfix)
      · -- the name crosses the end of the token
        by_cases hw : w = []
        · subst hw
          rw [List.append_nil] at h1
          exact hfr (by rw [h1]; exact hus.isInfix)
        · have hlast : ∀ c, u.getLast? = some c → isSep c = false := by
            intro c hc
            exact hxd c (by rw [h1]; simp [List.mem_of_getLast? hc])
          have hhead : ∀ c, (rtext code dxRule r).head? = some c → isSep c = false := by
            intro c hc
            cases w with
            | nil => exact absurd rfl hw
            | cons d w =>
              rw [h2] at hc
              simp only [List.cons_append, List.head?_cons, Option.some.injEq] at hc
              exact hxd c (by rw [h1, ← hc]; simp)
          cases r with
          | nil =>
            cases w with
            | nil => exact absurd rfl hw
            | cons d w => simp [rtext] at h2
          | cons b r =>
            cases hal : a.isLit with
            | true =>
              cases a with
              | lit s =>
                obtain ⟨c, hc, hc'⟩ := getLast?_lit hsep'
                have hc : s.getLast? = some c := hc
                have hus : u <:+ s := hus
                rw [← suffix_getLast? hu hus] at hc
                have := hlast c hc
                rw [hc'] at this; exact absurd this (by decide)
              | call g => simp [RTok.isLit] at hal
              | done g => simp [RTok.isLit] at hal
              | step g => simp [RTok.isLit] at hal
              | stepDone g => simp [RTok.isLit] at hal
            | false =>
              obtain ⟨c, hc, hc', -⟩ := head?_rtext_lit (code := code) (dxRule := dxRule) hal hsep'
              have := hhead c hc
              rw [hc'] at this; exact absurd this (by decide)

/-! ## rendered functions are quiet -/

theorem delims_decimal (k : ℤ) : delims (decimal k) = [] := by
  refine delims_eq_nil (fun c hc => ?_)
  rcases mem_decimal hc with rfl | h
  · decide
  · refine ⟨?_, ?_, ?_⟩ <;> rintro rfl <;> exact absurd h (by decide)

theorem delims_indexCall {x : Str} (hx : ∀ c ∈ x, isSep c = false) (k : ℤ) :
    delims (indexCall x k) = ['(', '\'', '\'', ')'] := by
  unfold indexCall
  rw [delims_append, delims_append, delims_append, delims_append, delims_decimal,
    delims_eq_nil (fun c hc => sep_delim (hx c hc))]
  decide

theorem delims_intercalate (l : List Str) (h : ∀ s ∈ l, delims s = ['(', '\'', '\'', ')']) :
    delims (List.intercalate ",".toList l) = (List.replicate l.length ['(', '\'', '\'', ')']).flatten := by
  induction l with
  | nil => rfl
  | cons a l ih =>
    have ha := h a (by simp)
    cases l with
    | nil => simpa [List.intercalate_singleton] using ha
    | cons b l =>
      rw [List.intercalate_cons_cons, delims_append, delims_append, ih (fun s hs => h s (by simp [hs])), ha]
      have : delims ",".toList = [] := by decide
      rw [this]
      simp [List.replicate_succ]

theorem blocks_suffix (m : ℕ) {S : Str} (h : S <:+ (List.replicate m ['(', '\'', '\'', ')']).flatten) (z : Str) :
    ∀ w, S ++ ')' :: z ≠ '(' :: ')' :: w := by
  induction m with
  | zero =>
    have : S = [] := List.eq_nil_of_suffix_nil (by simpa using h)
    subst this; simp
  | succ m ih =>
    rw [List.replicate_succ, List.flatten_cons] at h
    rcases suffix_split h with h | ⟨n, hn, hns, rfl⟩
    · exact ih h
    · intro w hw
      rcases List.suffix_cons_iff.1 hns with rfl | hns
      · simp at hw
      rcases List.suffix_cons_iff.1 hns with rfl | hns
      · simp at hw
      rcases List.suffix_cons_iff.1 hns with rfl | hns
      · simp at hw
      rcases List.suffix_cons_iff.1 hns with rfl | hns
      · simp at hw
      · exact hn (List.eq_nil_of_suffix_nil hns)

theorem quiet_code {n : Str} (hn : ∀ c ∈ n, isSep c = false) {xs : List Str} (hx : ∀ x ∈ xs, ∀ c ∈ x, isSep c = false)
    (ks : List ℤ) (hl : xs.length = ks.length) : Quiet (n ++ spaceText xs ks) := by
  by_cases h0 : ∀ k ∈ ks, k = 0
  · left
    have : spaceText xs ks = [] := by unfold spaceText; rw [if_pos h0]
    rw [this, List.append_nil]; exact hn
  · right
    have hst : spaceText xs ks = "[np.ix_(".toList ++ List.intercalate ",".toList (List.zipWith indexCall xs ks) ++ ")]".toList := by
      unfold spaceText; rw [if_neg h0]
    have e2 : ")]".toList = [')', ']'] := by decide
    have hks : ks ≠ [] := by rintro rfl; simp at h0
    obtain ⟨m, hm⟩ : ∃ m, (List.zipWith indexCall xs ks).length = m + 1 := by
      have := List.length_pos_of_ne_nil hks
      refine ⟨ks.length - 1, ?_⟩
      rw [List.length_zipWith]; omega
    have hdel : ∀ s ∈ List.zipWith indexCall xs ks, delims s = ['(', '\'', '\'', ')'] := by
      intro s hs
      rw [← List.map_uncurry_zip_eq_zipWith] at hs
      obtain ⟨⟨x, k⟩, hxk, rfl⟩ := List.mem_map.1 hs
      exact delims_indexCall (hx x (List.of_mem_zip hxk).1) k
    have hI := delims_intercalate _ hdel
    generalize List.intercalate ",".toList (List.zipWith indexCall xs ks) = I at *
    rw [hst, ← List.append_assoc, ← List.append_assoc, e2]
    refine ⟨⟨']', by rw [List.getLast?_append_of_ne_nil _ (by simp)]; rfl, by decide⟩, ?_⟩
    intro u w hu hus hb
    rcases suffix_split hus with hus | ⟨v, hv, hvs, rfl⟩
    · obtain ⟨c, hc, hc'⟩ := hb.head
      rcases List.suffix_cons_iff.1 hus with rfl | hus
      · simp at hc; subst hc; exact absurd hc' (by decide)
      rcases List.suffix_cons_iff.1 hus with rfl | hus
      · simp at hc; subst hc; exact absurd hc' (by decide)
      · exact hu (List.eq_nil_of_suffix_nil hus)
    · obtain ⟨z, hz⟩ := hb.delims
      have e3 : delims ([')', ']'] ++ w) = ')' :: delims w := by simp [delims]
      rw [List.append_assoc, delims_append, e3] at hz
      have hsuf : delims v <:+ delims (n ++ "[np.ix_(".toList ++ I) := by
        obtain ⟨q, hq⟩ := hvs
        exact ⟨delims q, by rw [← hq, delims_append]⟩
      have e4 : delims "[np.ix_(".toList = ['('] := by decide
      rw [delims_append, delims_append, delims_eq_nil (fun c hc => sep_delim (hn c hc)), e4, hI, hm] at hsuf
      rcases List.suffix_cons_iff.1 (show delims v <:+ '(' :: _ from hsuf) with h | h
      · rw [h] at hz
        simp [List.replicate_succ] at hz
      · exact blocks_suffix _ h _ _ hz

end Sympkf.Text
