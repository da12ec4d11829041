import Verif.Model.Mock
import Verif.Props.Paths

/-!
# C59: the names of rendered files
-/

namespace Verif.Mock

open Verif Verif.Utils Verif.Paths

/-- The document of a rendered file: that of the first parameter with a subpath, or else that of the context. -/
inductive Doc : List PyPath → Option Path → Path → Prop
  | source (before after : List PyPath) (root sub : Path) (src : Option Path) : (∀ p ∈ before, ∃ q, p = .plain q) →
      Doc (before ++ .source ⟨root, sub⟩ :: after) src sub
  | target (before after : List PyPath) (root target sub : Path) (src : Option Path) : (∀ p ∈ before, ∃ q, p = .plain q) →
      Doc (before ++ .target ⟨root, target, sub⟩ :: after) src sub
  | context (paths : List PyPath) (sub : Path) : (∀ p ∈ paths, ∃ q, p = .plain q) → Doc paths (some sub) sub

theorem firstSub_plain (before rest : List PyPath) (h : ∀ p ∈ before, ∃ q, p = .plain q) : firstSub (before ++ rest) = firstSub rest := by
  induction before with
  | nil => rfl
  | cons p l ih =>
    obtain ⟨q, rfl⟩ := h p (by simp)
    rw [List.cons_append, firstSub]
    exact ih (fun p hp => h p (by simp [hp]))

/-- The part of `generateMock` behind the choice of the subpath. -/
def mockFor (root s : Path) (hash : Str) (ext : Option Str) : Except PathError SourcePath := do
  let filename := parse (join ['_'] ([name s, hash].filter (· ≠ [])))
  let filename ← match ext with
    | some e => if e = [] then .ok filename else withSuffix filename e
    | none => .ok filename
  mkSource (toStr root) (toStr (div (parent s) filename))

theorem generateMock_eq (root : Path) (paths : List PyPath) (src : Option Path) (sub s : Path) (h : Doc paths src sub)
    (hs : withSuffix sub [] = .ok s) (hash : Str) (ext : Option Str) : generateMock root paths src hash ext = mockFor root s hash ext := by
  unfold generateMock mockFor
  cases h with
  | source before after r sub src hb =>
    rw [firstSub_plain before _ hb]
    simp only [firstSub, hs]
    rfl
  | target before after r t sub src hb =>
    rw [firstSub_plain before _ hb]
    simp only [firstSub, hs]
    rfl
  | context paths sub hb =>
    have := firstSub_plain paths [] hb
    rw [List.append_nil] at this
    rw [this]
    simp only [firstSub, hs]
    rfl

theorem withSuffix_stem (d : Path) (n st e : Str) (hs : Splits n st e) : withSuffix (child d n) [] = .ok (child d st) := by
  rcases hs with ⟨rfl, h1, h2, h3⟩ | ⟨rfl, h1, rfl, h3⟩
  · have := withSuffix_ext d st e [] h1 h2 h3 (by simp) (by simp)
    simpa using this
  · have := withSuffix_noext d n [] h1 h3 (by simp) (by simp)
    simpa using this

theorem noExt_of_not_mem (n : Str) (h : '.' ∉ n) : NoExt n := by
  intro a b e _
  exact absurd (by rw [e]; simp) h

/-- C59. The name of a rendered file is that of its document, without its extension, with the hash of what it is rendered from; it
has its place in the directory of the document. The name of the document has no further period. -/
theorem C59_name_partial (root : Path) (hr : Good root) (paths : List PyPath) (src : Option Path) (d : Path) (hd : Good d) (hrel : d.abs = false)
    (n st e hash x : Str) (hn : IsName n) (hsplit : Splits n st e) (hp : '.' ∉ st) (hdoc : Doc paths src (child d n))
    (hh : hash ≠ []) (hh1 : '.' ∉ hash) (hh2 : '/' ∉ hash) (hx : IsExt x) :
    generateMock root paths src hash (some ('.' :: x)) = .ok ⟨root, child d (st ++ '_' :: hash ++ '.' :: x)⟩ := by
  have hst : st ≠ [] := by rcases hsplit with ⟨_, h, _⟩ | ⟨_, h, _⟩ <;> exact h
  have hsl : '/' ∉ st := by
    intro h
    apply hn.2.2
    rcases hsplit with ⟨rfl, _⟩ | ⟨rfl, _⟩
    · simp [h]
    · exact h
  rw [generateMock_eq root paths src _ _ hdoc (withSuffix_stem d n st e hsplit)]
  unfold mockFor
  have hfn : join ['_'] ([name (child d st), hash].filter (· ≠ [])) = st ++ '_' :: hash := by
    rw [name_child]; simp [hst, hh, join]
  have hname : IsName (st ++ '_' :: hash) := by
    refine ⟨by simp, ?_, by simp [hsl, hh2]⟩
    intro h
    have : '_' ∈ ['.'] := by rw [← h]; simp
    simp at this
  have hsuf : withSuffix (⟨false, [st ++ '_' :: hash]⟩ : Path) ('.' :: x) = .ok ⟨false, [st ++ '_' :: hash ++ '.' :: x]⟩ := by
    have := withSuffix_noext ⟨false, []⟩ (st ++ '_' :: hash) ('.' :: x) hname.1 (noExt_of_not_mem _ (by simp [hp, hh1]))
      (by simp [hx.2.2]) (by simp)
      (by simp [hx.1])
    simpa [child] using this
  rw [hfn, parse_name _ hname, parent_child]
  simp only [List.cons_ne_nil, if_false, reduceCtorEq]
  rw [hsuf]
  have hname2 : IsName (st ++ '_' :: hash ++ '.' :: x) := by
    refine ⟨by simp, ?_, by simp [hsl, hh2, hx.2.2]⟩
    intro h
    have : '_' ∈ ['.'] := by rw [← h]; simp
    simp at this
  have hdiv : div d ⟨false, [st ++ '_' :: hash ++ '.' :: x]⟩ = child d (st ++ '_' :: hash ++ '.' :: x) := by
    rw [div_rel _ _ rfl]; rfl
  show mkSource (toStr root) (toStr (div d ⟨false, [st ++ '_' :: hash ++ '.' :: x]⟩)) = _
  rw [hdiv]
  exact mkSource_rel root _ hr (good_child _ _ hd hname2) hrel

/-- Finding: if the name of the document has another period, what follows it and the hash are lost. -/
theorem C59_period_loses_hash (root : Path) (hr : Good root) (paths : List PyPath) (src : Option Path) (d : Path) (hd : Good d)
    (hrel : d.abs = false) (n a b e hash x : Str) (hn : IsName n) (hsplit : Splits n (a ++ '.' :: b) e) (ha : a ≠ []) (hb : '.' ∉ b)
    (hdoc : Doc paths src (child d n)) (hh : hash ≠ []) (hh1 : '.' ∉ hash) (hh2 : '/' ∉ hash) (hx : IsExt x) :
    generateMock root paths src hash (some ('.' :: x)) = .ok ⟨root, child d (a ++ '.' :: x)⟩ := by
  have hsl : '/' ∉ a ++ '.' :: b := by
    intro h
    apply hn.2.2
    rcases hsplit with ⟨rfl, _⟩ | ⟨rfl, _⟩
    · exact List.mem_append_left _ h
    · exact h
  have hsla : '/' ∉ a ∧ '/' ∉ b := by simpa [not_or] using hsl
  rw [generateMock_eq root paths src _ _ hdoc (withSuffix_stem d n _ e hsplit)]
  unfold mockFor
  have hfn : join ['_'] ([name (child d (a ++ '.' :: b)), hash].filter (· ≠ [])) = a ++ '.' :: (b ++ '_' :: hash) := by
    rw [name_child]; simp [hh, join]
  have hname : IsName (a ++ '.' :: (b ++ '_' :: hash)) := by
    refine ⟨by simp, ?_, by simp [hsla.1, hsla.2, hh2]⟩
    intro h
    have : '_' ∈ ['.'] := by rw [← h]; simp
    simp at this
  have hsuf : withSuffix (⟨false, [a ++ '.' :: (b ++ '_' :: hash)]⟩ : Path) ('.' :: x) = .ok ⟨false, [a ++ '.' :: x]⟩ := by
    have := withSuffix_ext ⟨false, []⟩ a (b ++ '_' :: hash) ('.' :: x) ha (by simp) (by simp [hb, hh1]) (by simp [hx.2.2]) (by simp)
      (by simp [hx.1])
    simpa [child] using this
  rw [hfn, parse_name _ hname, parent_child]
  simp only [List.cons_ne_nil, if_false, reduceCtorEq]
  rw [hsuf]
  have hname2 : IsName (a ++ '.' :: x) := by
    refine ⟨by simp, ?_, by simp [hsla.1, hx.2.2]⟩
    intro h
    have := congrArg List.length h
    have hl : 0 < a.length := List.length_pos_iff.2 ha
    have hl2 : 0 < x.length := List.length_pos_iff.2 hx.1
    simp at this
    omega
  have hdiv : div d ⟨false, [a ++ '.' :: x]⟩ = child d (a ++ '.' :: x) := by
    rw [div_rel _ _ rfl]; rfl
  show mkSource (toStr root) (toStr (div d ⟨false, [a ++ '.' :: x]⟩)) = _
  rw [hdiv]
  exact mkSource_rel root _ hr (good_child _ _ hd hname2) hrel

/-- C59. Rendered files for different documents, or from different things, are different: the path of the output determines the
directory and stem of the document and the hash. (The stems have no period; see `C59_clash`.) -/
theorem C59_distinct_partial (env : Env) (henv : Good env.targetRoot) (hcache : Good env.cachePath)
    (hm : (env.mediaPath.getD []).head? ≠ some '/') (root : Path) (hr : Good root)
    (paths paths' : List PyPath) (src src' : Option Path) (d d' : Path) (hd : Good d) (hd' : Good d') (hrel : d.abs = false)
    (hrel' : d'.abs = false) (n n' st st' e e' hash hash' ext : Str) (hn : IsName n) (hn' : IsName n')
    (hsplit : Splits n st e) (hsplit' : Splits n' st' e') (hp : '.' ∉ st) (hp' : '.' ∉ st')
    (hdoc : Doc paths src (child d n)) (hdoc' : Doc paths' src' (child d' n'))
    (hh : hash ≠ [] ∧ '.' ∉ hash ∧ '/' ∉ hash) (hh' : hash' ≠ [] ∧ '.' ∉ hash' ∧ '/' ∉ hash') (hlen : hash.length = hash'.length)
    (hext : '/' ∉ ext) (target : Option Str) (dir : Path) (hdir : ∀ s, DirFor target (.source s) dir) (useCache useMedia : Bool)
    (hsame : useMedia = true → (env.mediaPath.getD [] <+: toStr (child d (st ++ '_' :: hash ++ ".render".toList)) ↔
      env.mediaPath.getD [] <+: toStr (child d' (st' ++ '_' :: hash' ++ ".render".toList))))
    (h : renderOut env root paths src hash ext target useCache useMedia = renderOut env root paths' src' hash' ext target useCache useMedia) :
    d = d' ∧ st = st' ∧ hash = hash' := by
  have hx : IsExt "render".toList := ⟨by decide, by decide, by decide⟩
  have e1 := C59_name_partial root hr paths src d hd hrel n st e hash "render".toList hn hsplit hp hdoc hh.1 hh.2.1 hh.2.2 hx
  have e2 := C59_name_partial root hr paths' src' d' hd' hrel' n' st' e' hash' "render".toList hn' hsplit' hp' hdoc' hh'.1 hh'.2.1 hh'.2.2 hx
  have hst : ∀ n st e : Str, Splits n st e → st ≠ [] := by
    intro n st e h; rcases h with ⟨_, h, _⟩ | ⟨_, h, _⟩ <;> exact h
  have hsl : ∀ n st e : Str, IsName n → Splits n st e → '/' ∉ st := by
    intro n st e hn hs h
    apply hn.2.2
    rcases hs with ⟨rfl, _⟩ | ⟨rfl, _⟩
    · exact List.mem_append_left _ h
    · exact h
  have hname : ∀ st hash : Str, '/' ∉ st → '/' ∉ hash → IsName (st ++ '_' :: hash ++ '.' :: "render".toList) := by
    intro st hash h1 h2
    refine ⟨by simp, ?_, ?_⟩
    · intro h
      have : '_' ∈ ['.'] := by rw [← h]; simp
      simp at this
    · simp [h1, h2]
  have hspl : ∀ st hash : Str, Splits (st ++ '_' :: hash ++ '.' :: "render".toList) (st ++ '_' :: hash) "render".toList :=
    fun st hash => .inl ⟨rfl, by simp, by decide, by decide⟩
  have r1 : renderOut env root paths src hash ext target useCache useMedia =
      generateOut env [.path (.source ⟨root, child d (st ++ '_' :: hash ++ '.' :: "render".toList)⟩)] target none (some ext) useCache useMedia := by
    unfold renderOut
    have : (".render".toList : Str) = '.' :: "render".toList := by decide
    rw [this, e1]; rfl
  have r2 : renderOut env root paths' src' hash' ext target useCache useMedia =
      generateOut env [.path (.source ⟨root, child d' (st' ++ '_' :: hash' ++ '.' :: "render".toList)⟩)] target none (some ext) useCache useMedia := by
    unfold renderOut
    have : (".render".toList : Str) = '.' :: "render".toList := by decide
    rw [this, e2]; rfl
  rw [r1, r2] at h
  obtain ⟨h1, h2, -⟩ := C34_injective_partial env henv hcache _ _ d d' _ _ _ _ _ _
    (.source root _ hrel) (.source root _ hrel') hd hd' (hname st hash (hsl n st e hn hsplit) hh.2.2)
    (hname st' hash' (hsl n' st' e' hn' hsplit') hh'.2.2) (hspl st hash) (hspl st' hash') target dir dir (hdir _) (hdir _) none (some ext)
    (by simp) (by simpa using hext) useCache useMedia hm (fun hu => by simpa using hsame hu) h
  have h3 := List.append_inj' (s₁ := st) (t₁ := '_' :: hash) (s₂ := st') (t₂ := '_' :: hash') h2 (by simp [hlen])
  exact ⟨h1, h3.1, by simpa using h3.2⟩

/-- Finding: for a document whose name has another period, all rendered files have the same path. -/
theorem C59_clash (env : Env) (root : Path) (hr : Good root) (d : Path) (hd : Good d) (hrel : d.abs = false)
    (n a b e hash hash' ext : Str) (hn : IsName n) (hsplit : Splits n (a ++ '.' :: b) e) (ha : a ≠ []) (hb : '.' ∉ b)
    (hh : hash ≠ [] ∧ '.' ∉ hash ∧ '/' ∉ hash) (hh' : hash' ≠ [] ∧ '.' ∉ hash' ∧ '/' ∉ hash') (target : Option Str) (useCache useMedia : Bool) :
    renderOut env root [] (some (child d n)) hash ext target useCache useMedia =
      renderOut env root [] (some (child d n)) hash' ext target useCache useMedia := by
  have hx : IsExt "render".toList := ⟨by decide, by decide, by decide⟩
  have hdoc : Doc [] (some (child d n)) (child d n) := .context _ _ (by simp)
  have hren : (".render".toList : Str) = '.' :: "render".toList := by decide
  unfold renderOut
  rw [hren, C59_period_loses_hash root hr [] _ d hd hrel n a b e hash _ hn hsplit ha hb hdoc hh.1 hh.2.1 hh.2.2 hx,
    C59_period_loses_hash root hr [] _ d hd hrel n a b e hash' _ hn hsplit ha hb hdoc hh'.1 hh'.2.1 hh'.2.2 hx]

/-- C59. Without a document the name is the hash alone; without a name there is an error. -/
theorem C59_no_document (root : Path) (hr : Good root) (paths : List PyPath) (hpl : ∀ p ∈ paths, ∃ q, p = .plain q) (hash x : Str)
    (hh : hash ≠ []) (hh1 : '.' ∉ hash) (hh2 : '/' ∉ hash) (hx : IsExt x) :
    generateMock root paths none hash (some ('.' :: x)) = .ok ⟨root, ⟨false, [hash ++ '.' :: x]⟩⟩ ∧
    generateMock root paths none [] (some ('.' :: x)) = .error .value := by
  have hf := firstSub_plain paths [] hpl
  rw [List.append_nil] at hf
  have hname : IsName hash := ⟨hh, fun h => hh1 (by simp [h]), hh2⟩
  have hname2 : IsName (hash ++ '.' :: x) := by
    refine ⟨by simp, ?_, by simp [hh2, hx.2.2]⟩
    intro h
    have := congrArg List.length h
    have hl : 0 < hash.length := List.length_pos_iff.2 hh
    simp at this
    omega
  constructor
  · unfold generateMock
    rw [hf]
    have hfn : join ['_'] ([((none : Option Path).map name).getD [], hash].filter (· ≠ [])) = hash := by simp [hh, join]
    have hsuf : withSuffix (⟨false, [hash]⟩ : Path) ('.' :: x) = .ok ⟨false, [hash ++ '.' :: x]⟩ := by
      have := withSuffix_noext ⟨false, []⟩ hash ('.' :: x) hh (noExt_of_not_mem _ hh1) (by simp [hx.2.2]) (by simp)
        (by simp [hx.1])
      simpa [child] using this
    show (do
      let filename := parse (join ['_'] ([((none : Option Path).map name).getD [], hash].filter (· ≠ [])))
      let filename ← withSuffix filename ('.' :: x)
      mkSource (toStr root) (toStr filename)) = _
    simp only [hfn, parse_name _ hname, hsuf]
    exact mkSource_rel root _ hr (fun c hc => by simp only [List.mem_singleton] at hc; subst hc; exact hname2) rfl
  · unfold generateMock
    rw [hf]
    have h0 : withSuffix (parse []) ('.' :: x) = .error .value := by
      have : name (parse []) = [] := by decide
      unfold withSuffix
      simp [this, hx.2.2, hx.1]
    have h1 : (join ['_'] ([((none : Option Path).map name).getD [], []].filter (· ≠ [])) : Str) = [] := by decide
    show (do
      let filename := parse (join ['_'] ([((none : Option Path).map name).getD [], []].filter (· ≠ [])))
      let filename ← withSuffix filename ('.' :: x)
      mkSource (toStr root) (toStr filename)) = _
    rw [h1]
    simp only [h0]
    rfl

/-! ### Concrete cases -/

example : renderOut env0 (parse "/p/src".toList) [] (some (parse "sub/a.dm".toList)) "0123456789ab".toList ".tex".toList
    (some "html".toList) false true = .ok (some ⟨parse "/p".toList, parse "html".toList, parse "media/sub/a_0123456789ab.tex".toList⟩) := by rfl

example : renderOut env0 (parse "/p/src".toList) [] (some (parse "sub/a.b.dm".toList)) "0123456789ab".toList ".tex".toList
    (some "html".toList) false true = .ok (some ⟨parse "/p".toList, parse "html".toList, parse "media/sub/a.tex".toList⟩) := by rfl

example : Splits "a.dm".toList "a".toList "dm".toList := .inl ⟨by decide, by decide, by decide, by decide⟩

example : Splits "a.b.dm".toList ("a".toList ++ '.' :: "b".toList) "dm".toList := .inl ⟨by decide, by decide, by decide, by decide⟩

example : ∀ s, DirFor (some "html".toList) (.source s) ⟨false, ["html".toList]⟩ :=
  fun s => .named _ _ (by unfold IsName; decide) (by decide) (by decide)

end Verif.Mock
