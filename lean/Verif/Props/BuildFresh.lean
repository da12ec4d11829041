import Verif.Lemmas.BuildFresh
import Verif.Props.BuildEpub

/-!
# C82: an epub whose package file has to be rendered

The theorem is about `Project.buildPack`, for any builders, any times at which commands end, any exit codes, and any number of rounds.
-/

namespace Verif.Build

open Verif Verif.Decider Verif.Builder

/-- **C82.** If the package file is not recorded as made from its parameters when a build begins (it is not there, or its template was
edited) and the build reports 'done', then the archive, and the file of each other step, is what is made from the files there are. The
database, if it tells the truth, still does. -/
theorem C82_fresh {P : Project} {U : Scope} {b : Packs} {T : Nat → List Nat} {root e opf z : Nat} {page archive : Step} {w : World}
    {S : Nat → Prop} (hk : Packed P U b w.subs T e opf z page archive) (hb : BeginsPacked P U T root e opf w S)
    (ht : Truthful P.cfg U w.db) (hn : ¬ ∃ k o, Digests P.cfg w.fs page k o ∧ w.db.get? k = some o) (depth rounds : Nat)
    (hd : (P.buildPack b depth root rounds w).1 = some (.ok .done)) :
    (∀ i s, Part P T root i → P.node i = some (.step s) → Current (P.buildPack b depth root rounds w).2.fs s) ∧
      Truthful P.cfg U (P.buildPack b depth root rounds w).2.db := by
  have hI : Inv P U w.subs ⟨fun i => ∀ s, P.node i = some (.step s) → w.fs s.out = none ∨ S i, w.db⟩ w S :=
    { truth := ht
      memory := fun _ _ _ _ _ _ _ h => h
      files := hb.files
      settled := by
        intro i hi
        obtain ⟨s, k, o, h1, h2, h3, h4⟩ := hb.upToDate i hi
        exact ⟨s, h1, ⟨k, o, h2, h3⟩, h4⟩
      started := fun i s _ hf => by rw [(hb.new i).1] at hf; exact absurd rfl hf
      found := fun i s _ hf => by rw [(hb.new i).1] at hf; cases hf
      running := fun i s _ hf => by rw [(hb.new i).1] at hf; cases hf
      ended := fun i s _ hf => by rw [(hb.new i).1] at hf; cases hf
      left := fun n => .refl _ _
      absent := by
        intro i s hn h1 h2
        rcases h1 s hn with h | h
        · exact absurd h h2
        · obtain ⟨t, _, _, h3, _, _, h4⟩ := hb.upToDate i h
          rw [hn] at h3
          injection h3 with h3; injection h3 with h3; subst h3
          exact h4
      plain := fun i s _ _ => by rw [(hb.new i).1]; rfl
      once := fun i s _ => .inl (hb.new i).2 }
  obtain ⟨S', h1, h2⟩ := buildPack_next hk hb.sound (fun n g hne hn hc hp a m c hl ha i hi s hs => hb.clears n g hne hn hc hp a m c hl ha i s hi hs)
    depth root rounds hb.top w S ⟨hI, fun n => .refl _ _, fun _ => .inl hn⟩ (hb.guarded.mono (fun _ h => absurd h id)) hd
  refine ⟨fun i s hi hs => ?_, h1.2.inv.truth⟩
  obtain ⟨t, h3, h4, _⟩ := h1.2.inv.settled i (h2 i hi)
  rw [hs] at h3
  injection h3 with h3; injection h3 with h3; subst h3
  exact h1.2.inv.done_current (hb.sound.known _ _ hs) h4

/-! ### An example: a pamphlet -/

/-- An archive of one byte. -/
def squeeze (bs : List Bytes) : Bytes := [(bs.flatten.foldr (· + ·) 0) / 2]

def leaflet : Step := ⟨[.path "doc.dm".toList], [201], "doc.xhtml".toList, halve 1, true⟩
def slip : Step := ⟨[.path "opf.tpl".toList], [202], "content.opf".toList, halve 2, true⟩
def handout : Step := ⟨[.path "doc.epub".toList], [204], "final.epub".toList, halve 4, true⟩
def stapled : Step := ⟨[.path "content.opf".toList, .path "doc.xhtml".toList], [205], "doc.epub".toList, squeeze, true⟩

/-- The root builder, the builder of the target, a page, the `XHtml2Epub`, its package file, the copy, and the archive. -/
def pamphlet : Project where
  cfg := tiny
  node
    | 0 => some (.group ⟨true, true, [], .other []⟩)
    | 1 => some (.group ⟨false, false, [.path "doc.dm".toList, .other [206]], .path "final.epub".toList⟩)
    | 2 => some (.step leaflet)
    | 4 => some (.group ⟨false, true, [.path "doc.xhtml".toList, .other [207]], .path "doc.epub".toList⟩)
    | 5 => some (.step slip)
    | 6 => some (.step handout)
    | 7 => some (.step stapled)
    | _ => none
  ends := fun _ => []

def pamphletPacks : Packs
  | 4 => some ⟨5, stapled⟩
  | _ => none

def pamphletSubs : Nat → List Nat
  | 0 => [1]
  | 1 => [2, 4, 6]
  | 4 => [5]
  | _ => []

/-- With the archive. -/
def pamphletParts : Nat → List Nat
  | 0 => [1]
  | 1 => [2, 4, 6]
  | 4 => [5, 7]
  | _ => []

def rack (fs : FS) (db : Dict Bytes Bytes) : World := ⟨fs, db, fun _ => .new, fun _ => [], fun _ => 0, pamphletSubs, 0⟩

/-- The steps of pamphlets, and files of one byte. -/
def pamphlets : Scope := ⟨fun s => s = leaflet ∨ s = slip ∨ s = handout ∨ s = stapled, small.files⟩

theorem pamphlet_step {i : Nat} {s : Step} (h : pamphlet.node i = some (.step s)) :
    (i = 2 ∧ s = leaflet) ∨ (i = 5 ∧ s = slip) ∨ (i = 6 ∧ s = handout) ∨ (i = 7 ∧ s = stapled) := by
  match i, h with
  | 2, h => injection h with h; injection h with h; exact .inl ⟨rfl, h.symm⟩
  | 5, h => injection h with h; injection h with h; exact .inr (.inl ⟨rfl, h.symm⟩)
  | 6, h => injection h with h; injection h with h; exact .inr (.inr (.inl ⟨rfl, h.symm⟩))
  | 7, h => injection h with h; injection h with h; exact .inr (.inr (.inr ⟨rfl, h.symm⟩))

theorem pamphlet_group {n : Nat} {g : Group} (h : pamphlet.node n = some (.group g)) :
    (n = 0 ∧ g = ⟨true, true, [], .other []⟩) ∨
    (n = 1 ∧ g = ⟨false, false, [.path "doc.dm".toList, .other [206]], .path "final.epub".toList⟩) ∨
    (n = 4 ∧ g = ⟨false, true, [.path "doc.xhtml".toList, .other [207]], .path "doc.epub".toList⟩) := by
  match n, h with
  | 0, h => injection h with h; injection h with h; exact .inl ⟨rfl, h.symm⟩
  | 1, h => injection h with h; injection h with h; exact .inr (.inl ⟨rfl, h.symm⟩)
  | 4, h => injection h with h; injection h with h; exact .inr (.inr ⟨rfl, h.symm⟩)
  | 2, h => cases h
  | 3, h => cases h
  | 5, h => cases h
  | 6, h => cases h
  | 7, h => cases h
  | n + 8, h => cases h

/-- Steps with one file. -/
theorem pamphlet_one {s : Step} (h : s = leaflet ∨ s = slip ∨ s = handout) : ∃ p a out c, 200 < a ∧
    (a = 201 ∧ c = 1 ∨ a = 202 ∧ c = 2 ∨ a = 204 ∧ c = 4) ∧ s = ⟨[.path p], [a], out, halve c, true⟩ := by
  rcases h with rfl | rfl | rfl
  · exact ⟨_, 201, _, 1, by decide, by decide, rfl⟩
  · exact ⟨_, 202, _, 2, by decide, by decide, rfl⟩
  · exact ⟨_, 204, _, 4, by decide, by decide, rfl⟩

/-- The digest of the files of the archive. -/
theorem stapled_key {fs : FS} (hf : small.files fs) {p q : Str} {k : Bytes} (h : tiny.hashItems fs [.path p, .path q, .other [205]] = some k) :
    ∃ x y, fs p = some [x] ∧ fs q = some [y] ∧ (k = [x, y, 205] ∨ k = [y, x, 205]) := by
  cases hx : fs p with
  | none => simp [Cfg.hashItems, Cfg.fed, hx] at h
  | some c =>
    cases hy : fs q with
    | none => simp [Cfg.hashItems, Cfg.fed, hx, hy] at h
    | some d =>
      obtain ⟨x, rfl, hx'⟩ := hf _ c hx
      obtain ⟨y, rfl, hy'⟩ := hf _ d hy
      refine ⟨x, y, rfl, rfl, ?_⟩
      have ey : sortBytes [[y], [205]] = [[y], [205]] := sort_pair y 205 hy' (by decide)
      have hxa : x < 205 := by
        rw [UInt8.lt_iff_toNat_lt] at *
        have : (200 : UInt8).toNat = 200 := rfl
        have : (205 : UInt8).toNat = 205 := rfl
        omega
      simp only [Cfg.hashItems, List.mapM_cons, List.mapM_nil, Cfg.fed, hx, hy] at h
      have h : some (sortBytes [[x], [y], [205]]).flatten = some k := h
      injection h with h
      rw [← h, show sortBytes [[x], [y], [205]] = insertBytes [x] (sortBytes [[y], [205]]) from rfl, ey]
      unfold insertBytes
      split
      · exact .inl rfl
      · simp [insertBytes, bytesLe, hxa]

theorem stapled_current {fs : FS} {x y o : UInt8} (hx : fs "content.opf".toList = some [x]) (hy : fs "doc.xhtml".toList = some [y])
    (ho : fs "doc.epub".toList = some [o]) : Current fs stapled ↔ (x + (y + 0)) / 2 = o := by
  have hc : ∀ bs, Contents fs stapled.parameters bs ↔ bs = [[x], [y]] := by
    intro bs
    unfold Contents stapled
    simp only [List.map_cons, List.map_nil, hx, hy]
    constructor
    · intro h
      have : [[x], [y]].map some = bs.map some := h
      exact (List.map_injective_iff.2 (fun _ _ h => Option.some.inj h) this).symm
    · rintro rfl; rfl
  unfold Current
  simp only [hc, exists_eq_left]
  show fs "doc.epub".toList = some [(x + (y + 0)) / 2] ↔ _
  rw [ho]
  simp only [Option.some.injEq, List.cons.injEq, and_true]
  exact eq_comm

theorem stapled_digests {fs : FS} (hf : small.files fs) {k o : Bytes} (h : Digests tiny fs stapled k o) :
    ∃ x y z, fs "content.opf".toList = some [x] ∧ fs "doc.xhtml".toList = some [y] ∧ fs "doc.epub".toList = some [z] ∧
      (k = [x, y, 205] ∨ k = [y, x, 205]) ∧ o = [z] := by
  obtain ⟨x, y, h1, h2, h3⟩ := stapled_key hf h.1
  cases hc : fs "doc.epub".toList with
  | none => exact absurd hc (digests_there h).2
  | some c =>
    obtain ⟨z, rfl, _⟩ := hf _ c hc
    refine ⟨x, y, z, h1, h2, rfl, h3, ?_⟩
    have := h.2
    simp only [Cfg.hashItems, List.mapM_cons, List.mapM_nil, Cfg.fed] at this
    rw [show fs stapled.out = some [z] from hc] at this
    simp [tiny, fileFed, sortBytes, insertBytes] at this
    exact this.symm

theorem pamphlet_faithful : Faithful tiny pamphlets := by
  intro s t fs fs' k o o' hs ht hf hf' hd hd' hc
  have hs : (s = leaflet ∨ s = slip ∨ s = handout) ∨ s = stapled := by
    rcases hs with h | h | h | h
    exacts [.inl (.inl h), .inl (.inr (.inl h)), .inl (.inr (.inr h)), .inr h]
  have ht : (t = leaflet ∨ t = slip ∨ t = handout) ∨ t = stapled := by
    rcases ht with h | h | h | h
    exacts [.inl (.inl h), .inl (.inr (.inl h)), .inl (.inr (.inr h)), .inr h]
  rcases hs with hs | rfl <;> rcases ht with ht | rfl
  · obtain ⟨p, a, out, c, ha, hac, rfl⟩ := pamphlet_one hs
    obtain ⟨p', a', out', c', ha', hac', rfl⟩ := pamphlet_one ht
    obtain ⟨x, y, hx, hy, rfl, rfl⟩ := tiny_digests hf ha hd
    obtain ⟨x', y', hx', hy', hk, rfl⟩ := tiny_digests hf' ha' hd'
    simp only [List.cons.injEq, and_true] at hk
    obtain ⟨rfl, rfl⟩ := hk
    have : c = c' := by
      rcases hac with ⟨rfl, rfl⟩ | ⟨rfl, rfl⟩ | ⟨rfl, rfl⟩ <;> rcases hac' with ⟨h, rfl⟩ | ⟨h, rfl⟩ | ⟨h, rfl⟩ <;>
        first | rfl | (exact absurd h (by decide))
    subst this
    rw [tiny_current hx hy] at hc
    rw [tiny_current hx' hy', hc]
  · obtain ⟨p, a, out, c, ha, hac, rfl⟩ := pamphlet_one hs
    obtain ⟨x, y, _, _, rfl, _⟩ := tiny_digests hf ha hd
    obtain ⟨_, _, _, _, _, _, h | h, _⟩ := stapled_digests hf' hd' <;> simp at h
  · obtain ⟨p, a, out, c, ha, hac, rfl⟩ := pamphlet_one ht
    obtain ⟨x, y, _, _, rfl, _⟩ := tiny_digests hf' ha hd'
    obtain ⟨_, _, _, _, _, _, h | h, _⟩ := stapled_digests hf hd <;> simp at h
  · obtain ⟨x, y, z, hx, hy, hz, hk, rfl⟩ := stapled_digests hf hd
    obtain ⟨x', y', z', hx', hy', hz', hk', rfl⟩ := stapled_digests hf' hd'
    rw [stapled_current hx hy hz] at hc
    rw [stapled_current hx' hy' hz', List.cons.injEq]
    have : x + (y + 0) = x' + (y' + 0) := by
      rcases hk with rfl | rfl <;> rcases hk' with h | h <;> simp only [List.cons.injEq, and_true] at h <;> obtain ⟨rfl, rfl⟩ := h
      · rfl
      · simp only [UInt8.add_zero]; exact UInt8.add_comm _ _
      · simp only [UInt8.add_zero]; exact UInt8.add_comm _ _
      · rfl
    rw [← this, hc]
    simp

/-- The digests of steps and composite builders end with their actions. -/
theorem pamphlet_last {s : Step} (hs : pamphlets.step s) {fs : FS} (hf : small.files fs) {k : Bytes}
    (h : tiny.hashItems fs (s.parameters ++ [.other s.action]) = some k) : k.getLast? = s.action.getLast? := by
  have hs : (s = leaflet ∨ s = slip ∨ s = handout) ∨ s = stapled := by
    rcases hs with h | h | h | h
    exacts [.inl (.inl h), .inl (.inr (.inl h)), .inl (.inr (.inr h)), .inr h]
  rcases hs with hs | rfl
  · obtain ⟨p, a, out, c, ha, hac, rfl⟩ := pamphlet_one hs
    obtain ⟨x, _, rfl⟩ := tiny_key hf ha h
    rfl
  · obtain ⟨x, y, _, _, rfl | rfl⟩ := stapled_key hf h <;> rfl

theorem pamphlet_glast {n : Nat} {g : Group} (h : pamphlet.node n = some (.group g)) (hg : g.parallel = false) {fs : FS}
    (hf : small.files fs) {k : Bytes} (hk : tiny.hashItems fs g.inputs = some k) : k.getLast? = some 206 ∨ k.getLast? = some 207 := by
  rcases pamphlet_group h with ⟨_, rfl⟩ | ⟨_, rfl⟩ | ⟨_, rfl⟩
  · cases hg
  · obtain ⟨x, _, rfl⟩ := tiny_key hf (by decide) hk
    exact .inl rfl
  · obtain ⟨x, _, rfl⟩ := tiny_key hf (by decide) hk
    exact .inr rfl

theorem pamphlet_sound : Sound pamphlet pamphlets where
  known i s h := by
    rcases pamphlet_step h with ⟨_, rfl⟩ | ⟨_, rfl⟩ | ⟨_, rfl⟩ | ⟨_, rfl⟩ <;> simp [pamphlets]
  closed i s fs bs h hf _ p c hc := by
    simp only at hc
    split at hc
    · have h200 : (200 : UInt8).toNat = 200 := rfl
      have h2 : (2 : UInt8).toNat = 2 := rfl
      have hh : ∀ c, c ≤ 4 → ∃ x, halve c bs = [x] ∧ x < 200 := by
        intro c hc
        refine ⟨_, rfl, ?_⟩
        rw [UInt8.lt_iff_toNat_lt]
        rw [UInt8.le_iff_toNat_le] at hc
        have := (bs.flatten.headD 0).toNat_lt
        have h4 : (4 : UInt8).toNat = 4 := rfl
        simp only [UInt8.toNat_add, UInt8.toNat_div, h2]
        omega
      injection hc with hc
      subst hc
      rcases pamphlet_step h with ⟨_, rfl⟩ | ⟨_, rfl⟩ | ⟨_, rfl⟩ | ⟨_, rfl⟩
      · exact hh 1 (by decide)
      · exact hh 2 (by decide)
      · exact hh 4 (by decide)
      · refine ⟨_, rfl, ?_⟩
        rw [UInt8.lt_iff_toNat_lt, UInt8.toNat_div, h2, h200]
        have := (bs.flatten.foldr (· + ·) 0).toNat_lt
        omega
    · exact hf p c hc
  faithful := pamphlet_faithful
  groups n g h hg s fs fs' k hs hf hf' hk hk' := by
    have h1 := pamphlet_last hs hf' hk'
    rcases pamphlet_glast h hg hf hk with h2 | h2 <;> rw [h2] at h1 <;> rcases hs with rfl | rfl | rfl | rfl <;> exact absurd h1 (by decide)
  decided n g h hg := by
    rcases pamphlet_group h with ⟨_, rfl⟩ | ⟨_, rfl⟩ | ⟨_, rfl⟩
    · cases hg
    · simp
    · simp
  other i s h := by
    rcases pamphlet_step h with ⟨_, rfl⟩ | ⟨_, rfl⟩ | ⟨_, rfl⟩ | ⟨_, rfl⟩ <;> decide
  twins i j s t h h' ho := by
    rcases pamphlet_step h with ⟨_, rfl⟩ | ⟨_, rfl⟩ | ⟨_, rfl⟩ | ⟨_, rfl⟩ <;>
      rcases pamphlet_step h' with ⟨_, rfl⟩ | ⟨_, rfl⟩ | ⟨_, rfl⟩ | ⟨_, rfl⟩ <;>
      first | rfl | (exact absurd ho (by decide))

theorem pamphlet_packed : Packed pamphlet pamphlets pamphletPacks pamphletSubs pamphletParts 4 5 7 slip stapled where
  packs := rfl
  single n hn := by
    match n, hn with
    | 0, _ => rfl
    | 1, _ => rfl
    | 2, _ => rfl
    | 3, _ => rfl
    | 4, h => exact absurd rfl h
    | n + 5, _ => rfl
  group := ⟨_, rfl, rfl⟩
  render := ⟨rfl, rfl⟩
  zip := ⟨rfl, rfl⟩
  lists := by
    refine ⟨rfl, rfl, fun n hn => ?_⟩
    match n, hn with
    | 0, _ => exact ⟨rfl, by decide⟩
    | 1, _ => exact ⟨rfl, by decide⟩
    | 2, _ => exact ⟨rfl, by decide⟩
    | 3, _ => exact ⟨rfl, by decide⟩
    | 4, h => exact absurd rfl h
    | n + 5, _ => exact ⟨rfl, List.not_mem_nil⟩
  others i s h hi := by
    rcases pamphlet_step h with ⟨rfl, rfl⟩ | ⟨rfl, rfl⟩ | ⟨rfl, rfl⟩ | ⟨rfl, rfl⟩
    · decide
    · exact absurd rfl hi
    · decide
    · decide
  apart fs fs' k hf hf' hk := by
    have h1 := pamphlet_last (s := slip) (.inr (.inl rfl)) hf hk
    refine ⟨fun i s h hi hk' => ?_, fun n g h hg hk' => ?_⟩
    · have h2 := pamphlet_last (pamphlet_sound.known i s h) hf' hk'
      rw [h1] at h2
      rcases pamphlet_step h with ⟨rfl, rfl⟩ | ⟨rfl, rfl⟩ | ⟨rfl, rfl⟩ | ⟨rfl, rfl⟩
      · exact absurd h2 (by decide)
      · exact absurd rfl hi
      · exact absurd h2 (by decide)
      · exact absurd h2 (by decide)
    · rcases pamphlet_glast h hg hf' hk' with h2 | h2 <;> rw [h1] at h2 <;> exact absurd h2 (by decide)

theorem pamphlet_covered {Q : Nat → Prop} {i : Nat} {s : Step} (h : pamphlet.node i = some (.step s))
    (hQ : ∀ p, Item.path p ∈ s.parameters → ∀ j t, pamphlet.node j = some (.step t) → t.out = p → Q j) : Covered pamphlet Q s := by
  rintro p hp ⟨j, t, _, hj, ho⟩
  exact ⟨j, t, hQ p hp j t hj ho, hj, ho⟩

theorem pamphlet_guarded : Guarded pamphlet pamphletParts (fun _ => False) 0 := by
  have out_of : ∀ j t, pamphlet.node j = some (.step t) → (t.out = "doc.xhtml".toList → j = 2) ∧ (t.out = "content.opf".toList → j = 5) ∧
      (t.out = "doc.epub".toList → j = 7) ∧ t.out ≠ "doc.dm".toList ∧ t.out ≠ "opf.tpl".toList := by
    intro j t hj
    rcases pamphlet_step hj with ⟨rfl, rfl⟩ | ⟨rfl, rfl⟩ | ⟨rfl, rfl⟩ | ⟨rfl, rfl⟩ <;> decide
  refine .parallel _ 0 _ rfl rfl (fun m hm => ?_)
  obtain rfl : m = 1 := by simpa [pamphletParts] using hm
  refine .sequence _ 1 _ rfl rfl (fun a m c hl => ?_)
  have hl : [2, 4, 6] = a ++ m :: c := hl
  rcases a with _ | ⟨a1, _ | ⟨a2, _ | ⟨a3, a⟩⟩⟩
  · simp only [List.nil_append, List.cons.injEq] at hl
    obtain ⟨rfl, _⟩ := hl
    refine .step _ 2 leaflet rfl (pamphlet_covered (i := 2) rfl ?_)
    intro p hp j t hj ho
    simp only [leaflet, List.mem_singleton, Item.path.injEq] at hp
    exact absurd (ho.trans hp) (out_of j t hj).2.2.2.1
  · simp only [List.cons_append, List.nil_append, List.cons.injEq] at hl
    obtain ⟨rfl, rfl, _⟩ := hl
    refine .sequence _ 4 _ rfl rfl (fun a m c hl => ?_)
    have hl : [5, 7] = a ++ m :: c := hl
    rcases a with _ | ⟨a1, _ | ⟨a2, a⟩⟩
    · simp only [List.nil_append, List.cons.injEq] at hl
      obtain ⟨rfl, _⟩ := hl
      refine .step _ 5 slip rfl (pamphlet_covered (i := 5) rfl ?_)
      intro p hp j t hj ho
      simp only [slip, List.mem_singleton, Item.path.injEq] at hp
      exact absurd (ho.trans hp) (out_of j t hj).2.2.2.2
    · simp only [List.cons_append, List.nil_append, List.cons.injEq] at hl
      obtain ⟨rfl, rfl, _⟩ := hl
      refine .step _ 7 stapled rfl (pamphlet_covered (i := 7) rfl ?_)
      intro p hp j t hj ho
      simp only [stapled, List.mem_cons, Item.path.injEq, List.not_mem_nil, or_false] at hp
      rcases hp with hp | hp
      · obtain rfl := (out_of j t hj).2.1 (ho.trans hp)
        exact .inr ⟨5, by simp, .step 5 slip rfl⟩
      · obtain rfl := (out_of j t hj).1 (ho.trans hp)
        exact .inl (.inr ⟨2, by simp, .step 2 leaflet rfl⟩)
    · have := congrArg List.length hl
      simp at this
  · simp only [List.cons_append, List.nil_append, List.cons.injEq] at hl
    obtain ⟨rfl, rfl, rfl, _⟩ := hl
    refine .step _ 6 handout rfl (pamphlet_covered (i := 6) rfl ?_)
    intro p hp j t hj ho
    simp only [handout, List.mem_singleton, Item.path.injEq] at hp
    obtain rfl := (out_of j t hj).2.2.1 (ho.trans hp)
    exact .inr ⟨4, by simp, .group 4 7 7 _ rfl (by decide) (.step 7 stapled rfl)⟩
  · have := congrArg List.length hl
    simp at this

theorem rack_begins {fs : FS} (db : Dict Bytes Bytes) (hf : small.files fs) :
    BeginsPacked pamphlet pamphlets pamphletParts 0 4 5 (rack fs db) (fun _ => False) where
  sound := pamphlet_sound
  files := hf
  new := fun _ => ⟨rfl, rfl⟩
  top := by decide
  guarded := pamphlet_guarded
  upToDate := fun _ h => h.elim
  clears n g hne h hc hp := by
    rcases pamphlet_group h with ⟨_, rfl⟩ | ⟨_, rfl⟩ | ⟨rfl, rfl⟩
    · cases hp
    · cases hc
    · exact absurd rfl hne

/-- A document and the template of the package file. -/
def copyOf (x : UInt8) (fs : FS) : FS := fun p =>
  if p = "doc.dm".toList then some [x] else if p = "opf.tpl".toList then some [6] else fs p

/-- The hypotheses of C82_fresh are met by a first build, which reports 'done'. -/
example : BeginsPacked pamphlet pamphlets pamphletParts 0 4 5 (rack (copyOf 100 fun _ => none) []) (fun _ => False) ∧
    Truthful pamphlet.cfg pamphlets [] ∧
    (¬ ∃ k o, Digests pamphlet.cfg (rack (copyOf 100 fun _ => none) []).fs slip k o ∧ Dict.get? ([] : Dict Bytes Bytes) k = some o) ∧
    (pamphlet.buildPack pamphletPacks 5 0 20 (rack (copyOf 100 fun _ => none) [])).1 = some (.ok .done) ∧
    (pamphlet.buildPack pamphletPacks 5 0 20 (rack (copyOf 100 fun _ => none) [])).2.fs "doc.epub".toList = some [28] := by
  refine ⟨rack_begins [] ?_, ?_, ?_, ?_⟩
  · intro p c hc
    unfold copyOf at hc
    split at hc
    · injection hc with hc; subst hc; exact ⟨100, rfl, by decide⟩
    · split at hc
      · injection hc with hc; subst hc; exact ⟨6, rfl, by decide⟩
      · cases hc
  · intro s fs k o _ _ _ h; cases h
  · rintro ⟨k, o, _, h⟩; cases h
  · decide +kernel

end Verif.Build
