import Verif.Props.EnvelopeBalance
import Verif.Props.FilledUp

/-
C139: a bank statement that is imported into a journal with envelopes counts as though its entries had been written by
hand, for the envelopes and for the balances.
-/

namespace Silverfox

set_option linter.unusedSectionVars false

/-! ### Specification: the entries that stand for the rows -/

/-- Specification: the entry that a row stands for, as one would write it by hand; it names no envelope. -/
def BankRow.byHand (a b : Str) (r : BankRow) : BEntry where
  date := r.date
  mark := s%"~"
  title := r.title
  day := r.day
  lines := [.posting ⟨s%" ", a, s%" ", r.amount, some (r.value, r.currency)⟩, .posting ⟨s%" ", b, [], [], none⟩]

/-- An entry without lines that name envelopes. -/
def PEntry.asB (e : PEntry) : BEntry := ⟨e.date, e.mark, e.title, e.day, e.lines.map .posting⟩

theorem asB_plain (e : PEntry) : e.asB.plain = e := by
  have key : ∀ ls : List PLine, ((ls.map BLine.posting).filterMap fun l => match l with
      | .posting p => some p
      | .move _ => none) = ls := by
    intro ls
    induction ls with
    | nil => rfl
    | cons l ls ih => rw [List.map_cons, List.filterMap_cons, ih]
  obtain ⟨d, m, t, day, ls⟩ := e
  show PEntry.mk d m t day _ = _
  congr 1
  exact key ls

theorem asB_moves (e : PEntry) : e.asB.moves = [] := by
  unfold BEntry.moves PEntry.asB
  simp only
  induction e.lines with
  | nil => rfl
  | cons l ls ih => rw [List.map_cons, List.filterMap_cons, ih]

theorem asB_counted (e : PEntry) : e.asB.counted = e := by
  obtain ⟨d, m, t, day, ls⟩ := e
  show PEntry.mk d m t day _ = _
  congr 1
  rw [show (PEntry.asB ⟨d, m, t, day, ls⟩).lines = ls.map BLine.posting from rfl, List.map_map]
  exact List.map_id _

theorem byHand_asB (a b : Str) (r : BankRow) : r.byHand a b = (r.entry a b).asB := rfl

theorem asB_ok {env : Env} {accs : List Str} {e : PEntry} (h : e.Ok env accs) : e.asB.Ok env accs :=
  ⟨by rw [asB_plain]; exact h, by rw [asB_moves]; simp, by rw [asB_moves]; simp⟩

theorem asB_of {M : Type} [Mag M] {e : PEntry} {x : Entry M} (h : EntryOf e x) : BEntryOf e.asB x :=
  ⟨h.1, by rw [h.2, show e.asB.lines = e.lines.map BLine.posting from rfl, List.map_map]; rfl⟩

/-! ### Entries that say the same -/

/-- The same lines, in any order, and written in any way. -/
structure PEntry.Alike (e e' : PEntry) : Prop where
  day : e.day = e'.day
  mark : e.mark = e'.mark
  title : e.title = e'.title
  given : e.given = e'.given
  seen : e.assets.map Prod.snd = e'.assets.map Prod.snd
  lines : (e.lines.map fun l => (l.account, l.value)).Perm (e'.lines.map fun l => (l.account, l.value))

structure BEntry.Alike (b b' : BEntry) : Prop where
  moves : b.moves = b'.moves
  plain : b.plain.Alike b'.plain
  counted : b.counted.Alike b'.counted

theorem PEntry.Alike.refl (e : PEntry) : e.Alike e := ⟨rfl, rfl, rfl, rfl, rfl, .refl _⟩

theorem BEntry.Alike.refl (b : BEntry) : b.Alike b := ⟨rfl, .refl _, .refl _⟩

theorem PEntry.Alike.symm {e e' : PEntry} (h : e.Alike e') : e'.Alike e := 
  ⟨h.day.symm, h.mark.symm, h.title.symm, h.given.symm, h.seen.symm, h.lines.symm⟩

theorem BEntry.Alike.symm {b b' : BEntry} (h : b.Alike b') : b'.Alike b := ⟨h.moves.symm, h.plain.symm, h.counted.symm⟩

theorem BEntry.Alike.day {b b' : BEntry} (h : b.Alike b') : b.day = b'.day := h.plain.day

theorem PEntry.Alike.filterMap {e e' : PEntry} (h : e.Alike e') {β : Type} (F : PEntry → PLine → Option β)
    (h1 : ∀ l, F e l = F e' l) (h2 : ∀ l l' : PLine, l.account = l'.account → l.value = l'.value → F e' l = F e' l') :
    (e.lines.filterMap (F e)).Perm (e'.lines.filterMap (F e')) := by
  have key : ∀ ls : List PLine, ls.filterMap (F e') =
      (ls.map fun l => (l.account, l.value)).filterMap fun v => F e' ⟨[], v.1, [], [], v.2⟩ := by
    intro ls
    rw [List.filterMap_map]
    exact List.filterMap_congr fun l _ => h2 _ _ rfl rfl
  rw [List.filterMap_congr fun l _ => h1 l, key, key]
  exact h.lines.filterMap _

theorem PEntry.Alike.worth {e e' : PEntry} (h : e.Alike e') (l : PLine) : e.worth l = e'.worth l := by
  unfold PEntry.worth PEntry.rest
  rw [h.given]

theorem worth_value (e : PEntry) {l l' : PLine} (h : l.value = l'.value) : e.worth l = e.worth l' := by
  unfold PEntry.worth
  rw [h]

theorem PEntry.Alike.weight {e e' : PEntry} (h : e.Alike e') (l : PLine) : e.weight l = e'.weight l := by
  unfold PEntry.weight
  rw [h.given]

theorem weight_value (e : PEntry) {l l' : PLine} (h : l.value = l'.value) : e.weight l = e.weight l' := by
  unfold PEntry.weight
  rw [h]

theorem PEntry.Alike.gain {e e' : PEntry} (h : e.Alike e') (f : Str → Bool) : e.gain f = e'.gain f := by
  unfold PEntry.gain
  refine ((h.filterMap (fun e l => if f l.account then e.worth l else none) (fun l => by rw [h.worth])
    fun l l' h1 h2 => by rw [h1, worth_value e' h2]).map _).sum_eq

theorem PEntry.Alike.weighedBy {e e' : PEntry} (h : e.Alike e') (f : Str → Bool) : (e.weighedBy f).Perm (e'.weighedBy f) :=
  h.filterMap (fun e l => if f l.account then (e.worth l).map fun v => (v, e.weight l) else none)
    (fun l => by rw [h.worth, h.weight]) fun l l' h1 h2 => by rw [h1, worth_value e' h2, weight_value e' h2]

theorem PEntry.Alike.gainWeight {e e' : PEntry} (h : e.Alike e') (f : Str → Bool) : e.gainWeight f = e'.gainWeight f := by
  unfold PEntry.gainWeight
  rw [(h.weighedBy f).length_eq, ((h.weighedBy f).map _).sum_eq]

theorem PEntry.Alike.weighed {e e' : PEntry} (h : e.Alike e') (k : Str) : (e.weighed k).Perm (e'.weighed k) :=
  h.filterMap (fun e l => if l.account = k then (e.worth l).map fun v => (v, e.weight l) else none)
    (fun l => by rw [h.worth, h.weight]) fun l l' h1 h2 => by rw [h1, worth_value e' h2, weight_value e' h2]

theorem PEntry.Alike.moves {e e' : PEntry} (h : e.Alike e') (k : Str) : (e.moves k).Perm (e'.moves k) :=
  h.filterMap (fun e l => if l.account = k then e.worth l else none) (fun l => by rw [h.worth])
    fun l l' h1 h2 => by rw [h1, worth_value e' h2]

theorem PEntry.Alike.line {e e' : PEntry} (h : e.Alike e') (P : Str → Option (Rat × Option Str) → Prop) :
    (∃ l ∈ e.lines, P l.account l.value) ↔ ∃ l ∈ e'.lines, P l.account l.value := by
  have key : ∀ ls : List PLine, (∃ l ∈ ls, P l.account l.value) ↔ ∃ v ∈ ls.map fun l => (l.account, l.value), P v.1 v.2 := by
    intro ls
    simp only [List.mem_map]
    constructor
    · rintro ⟨l, hl, hp⟩; exact ⟨_, ⟨l, hl, rfl⟩, hp⟩
    · rintro ⟨v, ⟨l, hl, rfl⟩, hp⟩; exact ⟨l, hl, hp⟩
  rw [key, key]
  simp only [h.lines.mem_iff]

theorem BEntry.Alike.touches {b b' : BEntry} (h : b.Alike b') (k : Str) (x : MeantDecl Rat) :
    b.Touches k x ↔ b'.Touches k x := by
  unfold BEntry.Touches
  rw [h.plain.line fun n _ => n = k, h.plain.line fun n _ => n ≠ k ∧ n ∈ x.fors]

theorem BEntry.Alike.automatic {b b' : BEntry} (h : b.Alike b') (k : Str) (fors : List Str) :
    b.plain.automatic k fors = b'.plain.automatic k fors := by
  unfold PEntry.automatic
  rw [h.plain.gain, h.plain.gain]

theorem BEntry.Alike.movesIn {b b' : BEntry} (h : b.Alike b') (k : Str) (x : MeantDecl Rat) :
    b.movesIn k x = b'.movesIn k x := by
  unfold BEntry.movesIn
  rw [h.moves, h.automatic]
  simp only [h.touches]

theorem BEntry.Alike.weighedMoves {b b' : BEntry} (h : b.Alike b') (k : Str) (x : MeantDecl Rat) :
    b.weighedMoves k x = b'.weighedMoves k x := by
  unfold BEntry.weighedMoves
  rw [h.moves, h.automatic, h.plain.gainWeight, h.plain.gainWeight]
  simp only [h.touches]

/-! ### Journals that say the same -/

section
variable {es es' : List BEntry} (h : List.Forall₂ BEntry.Alike es es')
include h

theorem alike_flatMap {β : Type} {f g : BEntry → List β} (hf : ∀ b b', b.Alike b' → f b = g b') :
    es.flatMap f = es'.flatMap g := by
  induction h with
  | nil => rfl
  | cons h1 _ ih => rw [List.flatMap_cons, List.flatMap_cons, hf _ _ h1, ih]

theorem alike_perm {β : Type} {f g : BEntry → List β} (hf : ∀ b b', b.Alike b' → (f b).Perm (g b')) :
    (es.flatMap f).Perm (es'.flatMap g) := by
  induction h with
  | nil => exact .refl _
  | cons h1 _ ih => rw [List.flatMap_cons, List.flatMap_cons]; exact (hf _ _ h1).append ih

theorem alike_now (last : Option Date) (k : Str) (x : MeantDecl Rat) : nowOf last k x es = nowOf last k x es' := by
  unfold nowOf
  rw [alike_flatMap h fun b b' hb => by rw [hb.movesIn, hb.day]]

theorem alike_next (last : Option Date) (k : Str) (x : MeantDecl Rat) : nextOf last k x es = nextOf last k x es' := by
  unfold nextOf
  rw [alike_flatMap h fun b b' hb => by rw [hb.movesIn, hb.day]]

theorem alike_held (k : Str) (x : MeantDecl Rat) : heldOf k x es = heldOf k x es' := by
  unfold heldOf
  rw [alike_flatMap h fun b b' hb => hb.movesIn k x]

theorem alike_heldWeight (k : Str) (x : MeantDecl Rat) : heldWeight k x es = heldWeight k x es' := by
  unfold heldWeight
  rw [alike_flatMap h fun b b' hb => hb.weighedMoves k x]

theorem alike_written (k : Str) (s : Option Str) :
    writtenSum k s (es.map BEntry.plain) = writtenSum k s (es'.map BEntry.plain) := by
  unfold writtenSum
  rw [List.flatMap_map, List.flatMap_map]
  exact ((alike_perm h fun b b' hb => hb.plain.moves k).map _).sum_eq

theorem alike_aside (k : Str) (s : Option Str) : asideSum k s es = asideSum k s es' := by
  unfold asideSum
  rw [alike_flatMap h fun b b' hb => by
    show b.aside k = b'.aside k
    unfold BEntry.aside
    rw [hb.moves]]

theorem alike_available (p : DeclAccount) (s : Option Str) : availableOf p s es = availableOf p s es' := by
  unfold availableOf
  rw [alike_written h]
  congr 2
  exact List.map_congr_left fun x _ => alike_held h p.1 x

theorem alike_weighed (k : Str) (s : Option Str) :
    (weighedIn k s (es.map BEntry.plain)).Perm (weighedIn k s (es'.map BEntry.plain)) := by
  unfold weighedIn
  rw [List.flatMap_map, List.flatMap_map]
  exact (alike_perm h fun b b' hb => hb.plain.weighed k).filter _

theorem alike_weights (p : DeclAccount) (s : Option Str) : (availableWeights p s es).Perm (availableWeights p s es') := by
  unfold availableWeights
  refine ((alike_weighed h p.1 s).map _).append ?_
  rw [List.flatMap_congr fun x _ => by rw [alike_heldWeight h p.1 x]]

theorem alike_mem {P : BEntry → Prop} (hP : ∀ b b', b.Alike b' → (P b ↔ P b')) : (∃ b ∈ es, P b) ↔ ∃ b ∈ es', P b := by
  induction h with
  | nil => simp
  | cons h1 _ ih => simp only [List.mem_cons, exists_eq_or_imp, hP _ _ h1, ih]

theorem alike_all {P : BEntry → Prop} (hP : ∀ b b', b.Alike b' → P b' → P b) (ha : ∀ b ∈ es', P b) : ∀ b ∈ es, P b := by
  intro b hb
  obtain ⟨b', hb', h1⟩ := forall₂_mem_left h hb
  exact hP _ _ h1 (ha b' hb')

theorem alike_fit {d : Date} {accs : List DeclAccount} (hf : EnvelopesFit d accs es') : EnvelopesFit d accs es := by
  refine ⟨hf.today, hf.schedule, fun p hp x hx => ?_, fun p hp x hx => ?_⟩
  · exact alike_all h (fun b b' hb g => by rw [hb.moves]; exact g) (hf.named p hp x hx)
  · refine alike_all h (fun b b' hb g h1 h2 l hl v hv => ?_) (hf.spent p hp x hx)
    have := (hb.plain.line fun _ w => (match w with | some v => some v | none => b.plain.rest) = some v).1 ⟨l, hl, hv⟩
    obtain ⟨l', hl', hv'⟩ := this
    refine g (hb.moves ▸ h1) ((hb.touches _ _).1 h2) l' hl' v ?_
    rw [← hb.plain.worth]
    exact hv'

theorem alike_small {accs : List DeclAccount} (hs : SmallBooks accs es') : SmallBooks accs es := by
  refine ⟨?_, ?_, hs.goals, fun p hp s => ?_⟩
  · intro e he
    obtain ⟨b, hb, rfl⟩ := List.mem_map.1 he
    exact alike_all h (P := fun b => ∀ v ∈ b.plain.given, ∃ D : Int, v.1 * 100000000 = D)
      (fun b b' hb g => by rw [hb.plain.given]; exact g) (fun b hb => hs.decimals _ (List.mem_map_of_mem hb)) b hb
  · exact alike_all h (fun b b' hb g => by rw [hb.moves]; exact g) hs.moved
  · rw [(alike_weights h p s).length_eq, (alike_weights h p s).sum_eq]
    exact hs.small p hp s

theorem alike_decided {accs : List DeclAccount} (hd : Decided accs es') : Decided accs es := by
  intro p hp x hx
  refine alike_all h (fun b b' hb g h1 h2 h3 => ?_) (hd p hp x hx)
  rw [hb.plain.gain] at h3 ⊢
  exact g (hb.moves ▸ h1) ((hb.touches _ _).1 h2) h3

theorem alike_counted8 (h8 : EightDecimals (es'.map BEntry.counted)) : EightDecimals (es.map BEntry.counted) := by
  intro e he
  obtain ⟨b, hb, rfl⟩ := List.mem_map.1 he
  exact alike_all h (P := fun b => ∀ v ∈ b.counted.given, ∃ D : Int, v.1 * 100000000 = D)
    (fun b b' hb g => by rw [hb.counted.given]; exact g) (fun b hb => h8 _ (List.mem_map_of_mem hb)) b hb

theorem alike_seen {k : Str} (hs : SeenBefore k (es'.map BEntry.counted)) : SeenBefore k (es.map BEntry.counted) := by
  intro e he hl
  obtain ⟨b, hb, rfl⟩ := List.mem_map.1 he
  obtain ⟨b', hb', h1⟩ := forall₂_mem_left h hb
  obtain ⟨e2, he2, h2, h3⟩ := hs _ (List.mem_map_of_mem hb') ((h1.counted.line fun n v => n = k ∧ v = none).1 hl)
  obtain ⟨c', hc', rfl⟩ := List.mem_map.1 he2
  obtain ⟨c, hc, h4⟩ := forall₂_mem_right h hc'
  refine ⟨_, List.mem_map_of_mem hc, ?_, (h4.counted.line fun n _ => n = k).2 h3⟩
  rw [h4.counted.day, h1.counted.day]
  exact h2

theorem alike_smallCounted {k : Str} (hs : Small k (es'.map BEntry.counted)) : Small k (es.map BEntry.counted) := by
  intro s
  have hp : (weighedIn k s (es.map BEntry.counted)).Perm (weighedIn k s (es'.map BEntry.counted)) := by
    unfold weighedIn
    rw [List.flatMap_map, List.flatMap_map]
    exact (alike_perm h fun b b' hb => hb.counted.weighed k).filter _
  rw [hp.length_eq, (hp.map _).sum_eq]
  exact hs s

theorem alike_report {d : Date} {accs : List DeclAccount} {out : List Str} (hr : EnvelopeReportF d accs es out) :
    EnvelopeReportF d accs es' out := by
  have hs : ∀ (k title : Str) (xs : List (MeantDecl Rat)) (ls : List Str), SectionPartF d k es title xs ls →
      SectionPartF d k es' title xs ls := by
    rintro k title xs ls (hx | ⟨h1, blocks, h2, h3⟩)
    · exact Or.inl hx
    · refine Or.inr ⟨h1, blocks, h2, h3.imp fun x b hb => ?_⟩
      unfold EnvelopePartF at hb ⊢
      simpa only [alike_now h, alike_next h] using hb
  obtain ⟨shown, blocks, h1, h2, h3, h4⟩ := hr
  refine ⟨shown, blocks, h1, h2, h3.imp fun p ls hp => ?_, h4⟩
  rcases hp with hp | ⟨h5, avail, ex, go, h6, h7, h8, h9⟩
  · exact Or.inl hp
  · refine Or.inr ⟨h5, avail, ex, go, h6, ?_, hs _ _ _ _ h8, hs _ _ _ _ h9⟩
    unfold AvailablePartF at h7 ⊢
    simpa only [alike_available h] using h7

end

theorem perm_same {α : Type} {l l' : List α} (h : l.Perm l') {x : α} (hx : ∀ y ∈ l', y = x) : l = l' := by
  rw [List.eq_replicate_of_mem fun y hy => hx y (h.mem_iff.1 hy), List.eq_replicate_of_mem hx, h.length_eq]

theorem StandsFor.alikeLines {a b : Str} {r : BankRow} {e : PEntry} (h : StandsFor a b r e) : e.Alike (r.entry a b) := by
  have hl : (e.lines.map fun l => (l.account, l.value)).Perm ((r.entry a b).lines.map fun l => (l.account, l.value)) := by
    obtain ⟨_, l1, l2, h1, h2, h3, h4, h5⟩ := h
    rcases h1 with h1 | h1 <;> rw [h1] <;> simp only [List.map_cons, List.map_nil, BankRow.entry, h2, h3, h4, h5]
    · exact .refl _
    · exact .swap _ _ _
  refine ⟨h.1.1, h.1.2.1, h.1.2.2, h.given, ?_, hl⟩
  have hg : e.given = (r.entry a b).given := h.given
  have key : ∀ ls : List PLine, (ls.filterMap fun l => if s%"asset" <+: l.account then (r.entry a b).worth l else none) =
      (ls.map fun l => (l.account, l.value)).filterMap fun v =>
        if s%"asset" <+: v.1 then (r.entry a b).worth ⟨[], v.1, [], [], v.2⟩ else none := by
    intro ls
    rw [List.filterMap_map]
    rfl
  have hw : ∀ l, e.worth l = (r.entry a b).worth l := by
    intro l
    unfold PEntry.worth PEntry.rest
    rw [hg]
  have hp : e.assets.Perm (r.entry a b).assets := by
    unfold PEntry.assets
    simp only [hw]
    rw [key, key]
    exact hl.filterMap _
  refine perm_same (hp.map _) (x := r.currency) fun y hy => ?_
  obtain ⟨v, hv, rfl⟩ := List.mem_map.1 hy
  obtain ⟨l, hl, hlv⟩ := List.mem_filterMap.1 hv
  split at hlv
  · unfold PEntry.worth PEntry.rest at hlv
    simp only [BankRow.entry, List.mem_cons, List.not_mem_nil, or_false] at hl
    rcases hl with rfl | rfl
    · cases hlv; rfl
    · rw [show (r.entry a b).given = [(r.value, r.currency)] from rfl] at hlv
      cases hlv; rfl
  · cases hlv

theorem StandsFor.alike {a b : Str} {r : BankRow} {e : PEntry} (h : StandsFor a b r e) : e.asB.Alike (r.byHand a b) := by
  rw [byHand_asB]
  exact ⟨by rw [asB_moves, asB_moves], by rw [asB_plain, asB_plain]; exact h.alikeLines,
    by rw [asB_counted, asB_counted]; exact h.alikeLines⟩

/-! ### Importing -/

section
variable {M : Type} [Mag M]

theorem inferLoop_described (e : Envelope M) (x : Entry M) (d : Str) (ps : List (Posting M)) (u v : Amount M) :
    e.inferLoop { x with description := d } ps u v = e.inferLoop x ps u v := by
  induction ps generalizing u v with
  | nil => rfl
  | cons p ps ih =>
    have h : e.inferAmount { x with description := d } p = e.inferAmount x p := rfl
    simp only [Envelope.inferLoop, ih, h]

theorem envelope_described (today : Date) (e : Envelope M) (x : Entry M) (d : Str) :
    e.processEntry today { x with description := d } = e.processEntry today x := by
  have h : e.infer today { x with description := d } = e.infer today x := by
    unfold Envelope.infer
    simp only [inferLoop_described]
  unfold Envelope.processEntry
  rw [h]
  rfl

theorem processEnvelopes_described (today : Date) (x : Entry M) (d : Str) (es : List (Envelope M)) :
    Account.processEnvelopes today { x with description := d } es = Account.processEnvelopes today x es := by
  induction es with
  | nil => rfl
  | cons e es ih => simp only [Account.processEnvelopes, ih, envelope_described]

theorem processReal_described (name : Str) (x : Entry M) (d : Str) (ps : List (Posting M)) (r : Pool M) :
    Account.processReal name { x with description := d } ps r = Account.processReal name x ps r := by
  induction ps generalizing r with
  | nil => rfl
  | cons p ps ih =>
    have h : Entry.blankAmount { x with description := d } = x.blankAmount := rfl
    simp only [Account.processReal, ih, h]

theorem processAll_described (today : Date) (x : Entry M) (d : Str) (as : List (Str × Account M)) :
    Ledger.processAll today { x with description := d } as = Ledger.processAll today x as := by
  induction as with
  | nil => rfl
  | cons a as ih =>
    simp only [Ledger.processAll, ih, Account.processEntry, processEnvelopes_described, processReal_described]

end

theorem entryLines_asB (e : PEntry) : entryLines [e.asB] = e.header :: e.lines.map PLine.text := by
  unfold entryLines
  rw [List.flatMap_cons, List.flatMap_nil, List.append_nil, asB_plain,
    show e.asB.lines = e.lines.map BLine.posting from rfl, List.map_map]
  rfl

theorem EnvelopesFit.one {d : Date} {accs : List DeclAccount} {es : List BEntry} (h : EnvelopesFit d accs es) {b : BEntry}
    (hb : b ∈ es) : EnvelopesFit d accs [b] := by
  refine ⟨h.today, h.schedule, fun p hp x hx e he => ?_, fun p hp x hx e he => ?_⟩
  · rw [List.mem_singleton.1 he]; exact h.named p hp x hx b hb
  · rw [List.mem_singleton.1 he]; exact h.spent p hp x hx b hb

theorem EnvelopeJournal.account_lines {env : Env} {accs : List DeclAccount} {es : List BEntry} {text : Str}
    (h : EnvelopeJournal env accs es text) : ∀ k ∈ accs.map Prod.fst, isWord k ∧ NoComment (s%"account " ++ k) := by
  intro k hk
  obtain ⟨p, hp, rfl⟩ := List.mem_map.1 hk
  have hn := h.names p hp
  refine ⟨hn.1, ?_⟩
  rw [noComment_iff, show s%"account " ++ p.1 = s%"account" ++ (s%" " ++ p.1) from rfl,
    rc_gap (by decide) (by decide) (by decide), (noComment_iff _).1 hn.2]

theorem rows_imported_beside {env : Env} (hord : FairOrder env.ord) {accs : List DeclAccount} {cols known : List Str}
    {fmt a b rules : Str} {dec : Char} (h : StatementRules (accs.map Prod.fst) cols fmt dec a b rules)
    (hn : ∀ k ∈ accs.map Prod.fst, k ∈ known) (path : Str) (hpath : endsInName path = true) (rows : List BankRow)
    (records : List (List Str)) (hin : List.Forall₂ (fun r record => BankRow.In dec cols record r) rows records)
    (hr : ∀ r ∈ rows, r.Ok env fmt) (hfit : ∀ r ∈ rows, EnvelopesFit env.today accs [r.byHand a b]) (w : World) (l : Ledger F64)
    (done : List BEntry) (hl : EnvelopeLedger env.today accs done l) (hlp : l.filePath = path)
    (happ : w.canAppend (resolve w.cwd path) = true) (es : List BEntry) (text : Str)
    (hfile : w.file (resolve w.cwd path) = some text) (hj : EnvelopeJournal env accs es text) :
    ∃ w1 l1 bs text', Ledger.importLoop env (.mk (statementVals cols fmt dec a b) .nil) known records w l = (w1, .ok l1) ∧
      w1.cwd = w.cwd ∧ w1.file (resolve w.cwd path) = some text' ∧
      (∀ p, p ≠ resolve w.cwd path → w1.file p = w.file p) ∧
      List.Forall₂ BEntry.Alike bs (rows.map (BankRow.byHand a b)) ∧
      EnvelopeJournal env accs (es ++ bs) text' ∧ text <+: text' := by
  induction hin generalizing w l es text done with
  | nil => exact ⟨w, l, [], text, rfl, rfl, hfile, fun _ _ => rfl, .nil, by simpa using hj, List.prefix_refl _⟩
  | @cons r record rows records h1 _ ih =>
    obtain ⟨x, pe, x1, x2, x3, x4, x5, _, me, m1, m2, m3⟩ := row_entry hord h hj.account_lines hn h1 (hr r (by simp))
    have hfit1 : EnvelopesFit env.today accs [me.asB] := alike_fit (.cons m2.alike .nil) (hfit r (by simp))
    obtain ⟨as', p1, p2⟩ := processAll_read hfit1 (by simp) (asB_ok m1) (asB_of m3) (fun _ h => h) hl.accounts
    rw [processAll_described] at p1
    have hadd := (addEntry_iff env hord l _ x).2 ⟨as', p1, rfl⟩
    generalize hl1 : ({ l with accounts := as', entries := stableSort (fun a b => Date.lt a.date b.date) (l.entries ++ [x]) } :
      Ledger F64) = l1 at hadd
    have hpl : EnvelopeLedger env.today accs (done ++ [me.asB]) l1 ∧ l1.filePath = path := by
      subst hl1
      exact ⟨⟨hl.decimal, hl.dateFormat, p2⟩, hlp⟩
    have hap : l.appendEntry env w x = (w.write (resolve w.cwd path) (text ++ '\n' :: pe.full), .ok l1) := by
      unfold Ledger.appendEntry
      rw [hlp, hl.dateFormat, x2, hpath, happ, hfile]
      simp only [World.append, hpath, happ, hfile]
      simp [hadd]
    obtain ⟨w1, l2, bs, text', i1, i2, i3, i4, i5, i6, i7⟩ := ih (fun r hr' => hr r (by simp [hr']))
      (fun r hr' => hfit r (by simp [hr'])) (w.write (resolve w.cwd path) (text ++ '\n' :: pe.full)) l1 _ hpl.1 hpl.2 happ
      (es ++ [pe.asB]) (text ++ '\n' :: pe.full) (by simp [World.write]) (hj.append (.of (by
        rw [entryLines_asB]; exact inked_full x3 x5)) (by
        intro b hb
        rw [List.mem_singleton.1 hb]; exact asB_ok x3))
    refine ⟨w1, l2, pe.asB :: bs, text', ?_, i2, i3, ?_, .cons x4.alike i5, by simpa using i6, (List.prefix_append _ _).trans i7⟩
    · simp only [Ledger.importLoop, Rules.entry, SubRules.entry, x1, hap]
      exact i1
    · intro p hp
      rw [i4 p hp]
      simp [World.write, hp]

/-! ### C139 -/

/-- C139. A bank statement that is imported with `silverfox import --no-move` into a journal with envelopes counts as
though its entries had been written by hand, with doubles, as the program has them: the import succeeds, only writes at
the end of the journal, and the journal is again one with these envelopes. On any later day the envelope report says
exactly what it says of a journal with the entries that the rows stand for, and the balance report exactly the sums. -/
theorem C139_statement_beside_envelopes (env : Env) (hord : FairOrder env.ord) (later : Date) (o o' : Outside) (w : World)
    (accs : List DeclAccount) (cols : List Str) (es : List BEntry) (rows : List BankRow) (header : List Str)
    (records : List (List Str)) (text path csvFile csvText fmt : Str) (dec : Char) (a b rules : Str)
    -- the journal
    (hj : EnvelopeJournal env accs es text) (hf : EnvelopesFit env.today accs (es ++ rows.map (BankRow.byHand a b)))
    (hr : w.read path = some text)
    (happ : w.canAppend (resolve w.cwd path) = true) (hp : path.head? = some '/' ∨ '/' ∉ path)
    -- the command
    (hfuel : o.fuel ≠ 0) (c : Str) (args : List Str) (fs : List Flag) (hc : c.head? = some 'i') (hargs : Spelled fs args)
    (hpath : journalFor o fs = some path) (hn : Flag.noMove ∈ fs) (hcsv : (fs.filterMap Flag.csv?).getLast? = some csvFile)
    -- the statement and the rules
    (hread : (w.cdParent path).read csvFile = some csvText) (htable : env.csv csvText = (header :: records).map some)
    (hrules : (w.cdParent path).read ((fs.filterMap Flag.rules?).getLast?.getD (csvFile ++ s%".rules")) = some rules)
    (hsr : StatementRules (accs.map Prod.fst) cols fmt dec a b rules)
    (hin : List.Forall₂ (fun r record => BankRow.In dec cols record r) rows records) (hok : ∀ r ∈ rows, r.Ok env fmt)
    -- the reports
    (hlater : later.Inner) (hfuel' : o'.fuel ≠ 0) :
    ∃ w1 added, mainProgram F64 env o (c :: args) w = (w1, .ok []) ∧ w1.file (resolve w.cwd path) = some (text ++ added) ∧
      (∀ p, p ≠ resolve w.cwd path → w1.file p = w.file p) ∧
      (∃ bs, List.Forall₂ BEntry.Alike bs (rows.map (BankRow.byHand a b)) ∧ EnvelopeJournal env accs (es ++ bs) (text ++ added)) ∧
      (SmallBooks accs (es ++ rows.map (BankRow.byHand a b)) → Decided accs (es ++ rows.map (BankRow.byHand a b)) →
        ∀ (c' : Str) (args' : List Str) (fs' : List Flag), c'.head? = some 'e' → Spelled fs' args' →
        journalFor o' fs' = some path → Flag.noMove ∈ fs' →
        ∃ w2 out, mainProgram F64 (env.on later) o' (c' :: args') { w1 with cwd := w.cwd } = (w2, .ok out) ∧
          w2.file = w1.file ∧ EnvelopeReportF later accs (es ++ rows.map (BankRow.byHand a b)) out) ∧
      (EightDecimals ((es ++ rows.map (BankRow.byHand a b)).map BEntry.counted) →
        (∀ k, SeenBefore k ((es ++ rows.map (BankRow.byHand a b)).map BEntry.counted)) →
        (∀ k, Small k ((es ++ rows.map (BankRow.byHand a b)).map BEntry.counted)) →
        ∀ (c' : Str) (args' : List Str) (fs' : List Flag), c'.head? = some 'b' → Spelled fs' args' →
        journalFor o' fs' = some path → Flag.noMove ∈ fs' →
        ∃ w2 out, mainProgram F64 (env.on later) o' (c' :: args') { w1 with cwd := w.cwd } = (w2, .ok out) ∧
          w2.file = w1.file ∧ ∀ k ts, (k, ts) ∈ readReport out → ∃ cs : List (Option Str), cs.Nodup ∧
            List.Forall₂ (fun t s => Amount.parse t '.' =
              .ok (⟨writtenSum k s (es.map BEntry.plain) + asideSum k s es +
                ((if k = a then statementSum s rows else 0) - (if k = b then statementSum s rows else 0)), s⟩ : Amount Rat))
              ts cs) := by
  have hname : endsInName path = true := by
    unfold World.read at hr
    split at hr
    · assumption
    · cases hr
  have hfile : w.file (resolve w.cwd path) = some text := by
    unfold World.read at hr
    rwa [if_pos hname] at hr
  have hfes : EnvelopesFit env.today accs es := ⟨hf.today, hf.schedule, fun p hp x hx e he => hf.named p hp x hx e (by simp [he]),
    fun p hp x hx e he => hf.spent p hp x hx e (by simp [he])⟩
  obtain ⟨fuel, hfu⟩ := Nat.exists_eq_succ_of_ne_zero hfuel
  obtain ⟨xs, l, l1, l2, l3, l4⟩ := hj.loads (M := F64) hord hfes fuel w path hr
  have hlp : l.filePath = path := (fromFile_sound env _ _ _ _ _ l4).1.choose_spec.filePath.1
  have hres := resolve_again w path hp hname
  obtain ⟨w1, l', bs, text', i1, i2, i4, i5, i6, i7, added, i8⟩ := rows_imported_beside hord hsr (known := l.accountNames) (by
      intro k hk
      show k ∈ l.accounts.map Prod.fst
      rw [l2.names]; exact hk) path hname rows records hin hok (fun r hr' => hf.one (by
      rw [List.mem_append]; exact Or.inr (List.mem_map_of_mem hr'))) (w.cdParent path) l es l2 hlp (by rw [hres]; exact happ)
    es text (by rw [hres]; exact hfile) hj
  rw [hres] at i4 i5
  have hmain : mainProgram F64 env o (c :: args) w = (w1, .ok []) := by
    rw [mainProgram_eq env o c args w .import_ fs hc hargs, execute_ledger env o .import_ fs w (w.cdParent path) l
      ⟨path, l, w.cdParent path, hpath, by rw [hfu]; exact l4, Or.inl ⟨hn, rfl, rfl⟩⟩]
    have himp : importerFromFile env (w.cdParent path) o.fuel csvFile (fs.filterMap Flag.rules?).getLast? =
        .ok (.mk (statementVals cols fmt dec a b) .nil, records) := by
      unfold importerFromFile
      rw [hread]
      simp only [hrules]
      unfold importerFromStrs
      rw [hsr.read hj.account_lines]
      simp only [bind, Except.bind]
      rw [htable, show ((header :: records).map some).drop (asUsize (Rules.mk (statementVals cols fmt dec a b) .nil).vals.skip) =
        records.map some from rfl, readRecords_some]
      rfl
    unfold runSub
    simp only [flagsOf, hcsv]
    unfold Ledger.importCsv
    rw [himp]
    simp only [i1]
  subst i8
  have hall : List.Forall₂ BEntry.Alike (es ++ bs) (es ++ rows.map (BankRow.byHand a b)) :=
    List.rel_append (List.forall₂_same.2 fun b _ => .refl b) i6
  have hf' : EnvelopesFit later accs (es ++ bs) := alike_fit hall ⟨hlater, hf.schedule, hf.named, hf.spent⟩
  have hread' : World.read { w1 with cwd := w.cwd } path = some (text ++ added) := by
    unfold World.read; rw [if_pos hname]; exact i4
  refine ⟨w1, added, hmain, i4, i5, ⟨bs, i6, i7⟩, ?_, ?_⟩
  · intro hs hd c' args' fs' hc' hargs' hpath' hn'
    obtain ⟨w2, out, g1, g2, g3⟩ := C123_from_text_to_envelopes_in_doubles (env.on later) hord o' { w1 with cwd := w.cwd } accs
      (es ++ bs) (text ++ added) path (i7.on later) hf' hread' hfuel' c' args' fs' hc' hargs' hpath' hn' (alike_small hall hs)
      (alike_decided hall hd)
    exact ⟨w2, out, g1, g2, alike_report hall g3⟩
  · intro h8 hseen hsmall c' args' fs' hc' hargs' hpath' hn'
    obtain ⟨w2, out, g1, g2, _, _, g3⟩ := C137_exact_rule (env.on later) hord o' { w1 with cwd := w.cwd } accs
      (es ++ bs) (text ++ added) path (i7.on later) hf' hread' hfuel' c' args' fs' hc' hargs' hpath' hn' (alike_counted8 hall h8)
      (fun k => alike_seen hall (hseen k)) (fun k => alike_smallCounted hall (hsmall k))
    refine ⟨w2, out, g1, g2, fun k ts hk => ?_⟩
    obtain ⟨cs, k1, _, k3⟩ := g3 k ts hk
    refine ⟨cs, k1, ?_⟩
    have e : ∀ s, writtenSum k s ((es ++ bs).map BEntry.plain) + asideSum k s (es ++ bs) =
        writtenSum k s (es.map BEntry.plain) + asideSum k s es +
          ((if k = a then statementSum s rows else 0) - (if k = b then statementSum s rows else 0)) := by
      intro s
      rw [alike_written hall, alike_aside hall, ← statement_moves]
      have e1 : (rows.map (BankRow.byHand a b)).map BEntry.plain = rows.map (BankRow.entry a b) := by
        rw [List.map_map]
        exact List.map_congr_left fun r _ => by
          show (r.byHand a b).plain = _
          rw [byHand_asB, asB_plain]
      have e2 : (rows.map (BankRow.byHand a b)).flatMap (BEntry.aside k) = [] := by
        rw [List.flatMap_eq_nil_iff]
        intro e he
        obtain ⟨r, _, rfl⟩ := List.mem_map.1 he
        rw [byHand_asB]
        unfold BEntry.aside
        rw [asB_moves]
        rfl
      unfold writtenSum asideSum
      rw [List.map_append, e1, List.flatMap_append, List.flatMap_append, e2, List.append_nil, List.map_append, List.sum_append]
      ring
    simpa only [e] using k3

/-! ### A statement and an envelope -/

def exMarket : BankRow := ⟨s%"2024-06-14", s%"market", s%"$-6.50", ⟨2024, 6, 14, by decide⟩, -13 / 2, some s%"$"⟩
def exMarketStatement : Str := s%"Day,What,Amount\n2024-06-14,market,$-6.50\n"
def exMarketRules : Str :=
  s%"fields date,description,amount\n\ndate_format %Y-%m-%d\naccount1 bank\namount1 %amount%\naccount2 shop\n"
def exMarketRecords : List (List Str) := [[s%"2024-06-14", s%"market", s%"$-6.50"]]
def exMarketEntries : List BEntry := [exSalaryIn, exShopping, exSaving] ++ [exMarket].map (BankRow.byHand s%"bank" s%"shop")
def exMarketDisk : World := disk [("j", String.ofList exGroceriesText), ("b.csv", String.ofList exMarketStatement),
  ("b.csv.rules", String.ofList exMarketRules)]

/-- The journal of C121, a statement and its rules meet the conditions. -/
example : EnvelopeJournal (stdEnv june15) exGroceriesAccounts [exSalaryIn, exShopping, exSaving] exGroceriesText ∧
    EnvelopesFit june15 exGroceriesAccounts exMarketEntries ∧
    exMarketDisk.read s%"j" = some exGroceriesText ∧ exMarketDisk.canAppend (resolve exMarketDisk.cwd s%"j") = true ∧
    (exMarketDisk.cdParent s%"j").read s%"b.csv" = some exMarketStatement ∧
    (exMarketDisk.cdParent s%"j").read s%"b.csv.rules" = some exMarketRules ∧
    (stdEnv june15).csv exMarketStatement = ([s%"Day", s%"What", s%"Amount"] :: exMarketRecords).map some ∧
    StatementRules (exGroceriesAccounts.map Prod.fst) [s%"date", s%"description", s%"amount"] s%"%Y-%m-%d" '.' s%"bank" s%"shop"
      exMarketRules ∧
    List.Forall₂ (fun r record => BankRow.In '.' [s%"date", s%"description", s%"amount"] record r) [exMarket] exMarketRecords ∧
    (∀ r ∈ [exMarket], r.Ok (stdEnv june15) s%"%Y-%m-%d") ∧
    SmallBooks exGroceriesAccounts exMarketEntries ∧ Decided exGroceriesAccounts exMarketEntries ∧
    EightDecimals (exMarketEntries.map BEntry.counted) ∧ (∀ k, SeenBefore k (exMarketEntries.map BEntry.counted)) ∧
    ∀ k, Small k (exMarketEntries.map BEntry.counted) := by
  refine ⟨exGroceriesText_ok, ⟨exGroceries_fits.today, exGroceries_fits.schedule, by decide +kernel, by decide +kernel⟩,
    by decide +kernel, by decide +kernel, by decide +kernel, by decide +kernel, by decide +kernel, ?_, ?_, ?_,
    small_books_of_all (by decide +kernel) (by decide +kernel) (by decide +kernel) (by decide +kernel),
    by unfold Decided; decide +kernel, ?_, ?_, ?_⟩
  · exact ⟨⟨[], by decide +kernel, Or.inl ⟨rfl, rfl⟩⟩, ⟨by decide, by decide⟩, by decide +kernel, by decide +kernel, by decide, by decide,
      ⟨by decide, by decide, by decide, by decide⟩, ⟨by decide, by decide, by decide, by decide⟩⟩
  · exact .cons ⟨by decide, by decide, ⟨s%"$-6.50", by decide, ⟨by decide +kernel, by decide, by decide, by decide +kernel⟩⟩, by decide⟩ .nil
  · have hd : ValidSymbol '.' s%"$" := by decide
    have a1 : WrittenAmount s%"$-6.50" (-13 / 2) (some s%"$") :=
      ⟨s%"-6.50", true, 650, 2, ⟨s%"6", s%"50", by decide, by decide, by decide, by decide, by decide, by decide⟩,
        by norm_num, Or.inr ⟨_, rfl, hd, by decide⟩⟩
    intro r hr
    simp only [List.mem_cons, List.not_mem_nil, or_false] at hr
    subst hr
    exact ⟨by decide +kernel, writableDay_default _ rfl rfl _ (by decide), by decide +kernel, a1, by decide +kernel, by decide +kernel,
        ⟨-650000000, by norm_num [exMarket], by decide⟩⟩
  · have h : ∀ e ∈ exMarketEntries.map BEntry.counted, ∀ v ∈ e.given, (v.1 * 100000000).den = 1 := by decide +kernel
    exact fun e he v hv => whole_of_den (h e he v hv)
  · generalize hes : exMarketEntries.map BEntry.counted = es
    have h1 : SeenBefore s%"bank" es := by subst hes; unfold SeenBefore; decide +kernel
    have h2 : SeenBefore s%"shop" es := by subst hes; unfold SeenBefore; decide +kernel
    have h4 : SeenBefore s%"pay" es := by subst hes; unfold SeenBefore; decide +kernel
    have h3 : ∀ e ∈ es, ∀ l ∈ e.lines, l.account = s%"bank" ∨ l.account = s%"shop" ∨ l.account = s%"pay" := by
      subst hes; decide +kernel
    intro k e he ⟨l, hl, hk, hv⟩
    rcases h3 e he l hl with h | h | h
    · rw [← hk, h]; exact h1 e he ⟨l, hl, h, hv⟩
    · rw [← hk, h]; exact h2 e he ⟨l, hl, h, hv⟩
    · rw [← hk, h]; exact h4 e he ⟨l, hl, h, hv⟩
  · intro k
    apply small_of_all
    by_cases h1 : k = s%"bank"
    · subst h1; decide +kernel
    · by_cases h2 : k = s%"shop"
      · subst h2; decide +kernel
      · by_cases h3 : k = s%"pay"
        · subst h3; decide +kernel
        · have : (exMarketEntries.map BEntry.counted).flatMap (PEntry.weighed k) = [] := by
            simp [PEntry.weighed, exMarketEntries, exSalaryIn, exShopping, exSaving, exMarket, BankRow.byHand, BEntry.counted,
              BLine.counted, Ne.symm h1, Ne.symm h2, Ne.symm h3]
          rw [this]; norm_num

/-- What the market takes comes out of the envelope; what is available stays. The balance of the bank counts what is
set aside, $ 38.50, on top of the $ 86.25 there are; see C137. -/
example :
    let w := (mainProgram F64 (stdEnv june15) exOutside [s%"import", s%"-f", s%"j", s%"--csv", s%"b.csv", s%"-n"] exMarketDisk).1
    (∃ out, (mainProgram F64 (stdEnv june15) exOutside [s%"envelopes", s%"-f", s%"j", s%"-n"]
        { w with cwd := exMarketDisk.cwd }).2 = .ok out ∧
      out = [s%"bank", s%"  available", s%"    $ 66.5", s%"  expenses", s%"    food",
        s%"      now                                  $ 11.75 / $ 40 |═══════════                             |",
        s%"      next (on 2024-07-10)                     $ 8 / $ 40 |════════                                |", []]) ∧
    ∃ out, (mainProgram F64 (stdEnv june15) exOutside [s%"balance", s%"-f", s%"j", s%"-n"]
        { w with cwd := exMarketDisk.cwd }).2 = .ok out ∧
      readReport out = [(s%"bank", [s%"$ 124.75"]), (s%"pay", [s%"$-105"]), (s%"shop", [s%"$ 18.75"])] := by
  constructor <;> decide +kernel

end Silverfox
