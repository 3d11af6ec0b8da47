import Verif.Props.Sessions
import Verif.Props.Import
import Mathlib.Data.List.Nodup
import Mathlib.Data.List.Perm.Subperm

/-
C110: asking for a report again on the same day.
-/

namespace Silverfox

set_option linter.unusedSectionVars false
variable {M : Type} [Mag M]

/-! ### The reports do not show comments -/

theorem totalsLoop_bare (es : List (Entry M)) (tot : List (Str × Pool M)) :
    Ledger.totalsLoop (es.map Entry.bare) tot = Ledger.totalsLoop es tot := by
  have hb : ∀ e : Entry M, e.bare.blankAmount = e.blankAmount := fun e => rfl
  have hs : ∀ (e : Entry M) (p : Posting M) (tot : List (Str × Pool M)),
      Ledger.totalsStep e.bare p tot = Ledger.totalsStep e p tot := by
    intro e p tot
    unfold Ledger.totalsStep
    rw [hb]
  have he : ∀ (e : Entry M) (ps : List (Posting M)) (tot : List (Str × Pool M)),
      Ledger.totalsEntry e.bare ps tot = Ledger.totalsEntry e ps tot := by
    intro e ps
    induction ps with
    | nil => intro tot; rfl
    | cons p ps ih => intro tot; simp only [Ledger.totalsEntry, hs, ih]
  induction es generalizing tot with
  | nil => rfl
  | cons e es ih =>
    simp only [List.map_cons, Ledger.totalsLoop, he, ih]
    rfl

theorem registerData_bare (env : Env) (e : Entry M) (fmt : Str) (am : Option Str) :
    e.bare.registerData env fmt am = e.registerData env fmt am := by
  have hl : ∀ (ps : List (Posting M)) a b c, registerLoop e.bare am ps a b c = registerLoop e am ps a b c := by
    intro ps
    induction ps with
    | nil => intros; rfl
    | cons p ps ih =>
      intro a b c
      unfold registerLoop
      simp only [ih]
      rfl
  unfold Entry.registerData
  rw [hl]
  rfl

theorem rows_bare (env : Env) (fmt : Str) (am : Option Str) (es : List (Entry M)) :
    Register.rows env fmt am (es.map Entry.bare) = Register.rows env fmt am es := by
  induction es with
  | nil => rfl
  | cons e es ih => simp only [List.map_cons, Register.rows, registerData_bare, ih]

theorem register_bare (env : Env) (t : Bool) (es : List (Entry M)) (fmt : Str) (b e : Option Date) (am : Option Str) :
    Register.display env t (es.map Entry.bare) fmt b e am = Register.display env t es fmt b e am := by
  have hs : Register.select (es.map Entry.bare) b e am = (Register.select es b e am).map Entry.bare := by
    unfold Register.select
    rw [List.filter_map]
    rfl
  unfold Register.display
  rw [hs, rows_bare]

theorem runSub_bare (env : Env) (o : Outside) (f : Flags) (w : World) (l : Ledger M) (h : f.sub ≠ .import_) :
    runSub env o f w l.bareAll = runSub env o f w l := by
  unfold runSub
  split
  · unfold Ledger.displayBalance Ledger.totals
    show (w, do let tot ← Ledger.totalsLoop (l.entries.map Entry.bare) []; _) = _
    rw [totalsLoop_bare]
  · rfl
  · have : Register.display env o.terminal l.bareAll.entries l.bareAll.dateFormat none none none =
        Register.display env o.terminal l.entries l.dateFormat none none none := register_bare _ _ _ _ _ _ _
    rw [this]
  · rename_i h'; exact absurd h' h
  · rfl
  · rfl

theorem register_ord (env : Env) (o1 o2 : HashOrder) (t : Bool) (es : List (Entry M)) (fmt : Str) (b e : Option Date)
    (am : Option Str) :
    Register.display (env.withOrd o1) t es fmt b e am = Register.display (env.withOrd o2) t es fmt b e am := by
  have h : ∀ es : List (Entry M), Register.rows (env.withOrd o1) fmt am es = Register.rows (env.withOrd o2) fmt am es := by
    intro es
    induction es with
    | nil => rfl
    | cons e es ih => 
      simp only [Register.rows, ih]
      rfl
  unfold Register.display
  rw [h]

theorem runSub_ord (env : Env) (o1 o2 : HashOrder) (h1 : FairOrder o1) (h2 : FairOrder o2) (o : Outside) (f : Flags)
    (w : World) (l : Ledger M) (h : f.sub ≠ .import_) :
    runSub (env.withOrd o1) o f w l = runSub (env.withOrd o2) o f w l := by
  unfold runSub
  split
  · rw [C53_balance_report env o1 o2 h1 h2]
  · rw [C53_envelope_report env o1 o2 h1 h2]
  · rw [register_ord env o1 o2]
  · rename_i h'; exact absurd h' h
  · rfl
  · rfl

/-! ### C110 -/

/-- Specification: a command that reports on this journal and moves money to envelopes before. -/
def Asks (o : Outside) (path : Str) (args : List Str) : Prop :=
  ∃ f, Flags.parse args = .ok (some f) ∧ f.sub ≠ .import_ ∧ f.noMove = false ∧ f.file.or o.file = some path

theorem asks_runs (env : Env) (o : Outside) (path : Str) (args : List Str) (f : Flags) (w w1 w2 : World) (l l' : Ledger M)
    (hf : Flags.parse args = .ok (some f)) (hm : f.noMove = false)
    (hp : f.file.or o.file = some path) (hload : Ledger.fromFile env o.fuel w path = .ok (l, w1))
    (hfill : l.fillEnvelopes env w1 = (w2, .ok l')) :
    mainProgram M env o args w = runSub env o f w2 l' := by
  unfold mainProgram
  rw [hf]
  simp only [execute, hp, hload, hm, hfill]
  rfl

/-- **C110, in part.** Asking again on the same day, in exact arithmetic. Once a command has loaded the journal and moved
money to the envelopes, a further command of that day, for the same report or another, from any directory and with any
order of hash tables, changes no file, and prints what it would have printed in place of the first. Conditions: the path
is absolute (C60), the day can be written, and the amounts moved have no more than 8 decimals. Missing: amounts of more
decimals, for which it is false, also in ordinary journals (`C110_asking_again_moves_money`). -/
theorem C110_asking_again_partial (env : Env) (hord : FairOrder env.ord) (ord2 : HashOrder) (hord2 : FairOrder ord2)
    (o : Outside) (path : Str) (hp : path.head? = some '/') (args args2 : List Str) (ha : Asks o path args)
    (ha2 : Asks o path args2) (w w1 w2 : World) (l l' : Ledger Rat)
    (hload : Ledger.fromFile env o.fuel w path = .ok (l, w1)) (hfill : l.fillEnvelopes env w1 = (w2, .ok l'))
    (hday : WritableDay env l.dateFormat env.today) (hsym : PlainSymbols l)
    (hamt : ∀ k a qs, (k, a) ∈ l.accounts → a.fillingPostings env.today = .ok qs → ∀ q ∈ qs,
      round8 q.amount.mag = q.amount.mag) (cwd : APath) :
    (mainProgram Rat env o args w).1 = w2 ∧
    mainProgram Rat (env.withOrd ord2) o args2 { w2 with cwd := cwd } = (w2, (mainProgram Rat env o args2 w).2) := by
  obtain ⟨f, hf, hs, hm, hpf⟩ := ha
  obtain ⟨f2, hf2, hs2, hm2, hpf2⟩ := ha2
  obtain ⟨d, hd1, hd2, hd3, hd4⟩ := hday
  have hre := C61_reload_partial env hord o.fuel w w1 w2 path d l l' hload (absolute_anywhere path hp _ _) ⟨hd1, hd2⟩ hd3 hd4
    (fun k a qs hka hqs q hq _ => by
      refine ⟨?_, hamt k a qs hka hqs q hq⟩
      obtain ⟨e, he, _, _, h4⟩ := fillingPostings_of _ a qs hqs q hq
      refine C11_printable_exact _ fun s hs' => ?_
      exact hsym e (List.mem_flatMap.2 ⟨(k, a), hka, he⟩) s (by rw [← h4]; exact hs')) hfill
  rw [fromFile_cwd _ _ _ _ _ hp] at hre
  have hre2 : Ledger.fromFile (env.withOrd ord2) o.fuel { w2 with cwd := cwd } path = .ok (l'.bareAll, w2) := by
    rw [fromFile_cwd _ _ _ _ _ hp]
    exact (C53_loading env env.ord ord2 hord hord2 o.fuel w2 path _).1 hre
  have hno : l'.bareAll.fillEnvelopes (env.withOrd ord2) w2 = (w2, .ok l'.bareAll) := by
    refine no_fill _ hord2 w2 _ fun k a hka => ?_
    obtain ⟨qs, h1, h2⟩ := filled_zero env hord w1 w2 l l' (loaded_inv _ _ _ _ _ _ hload) hfill k a hka
    exact ⟨qs, h1, fun q hq => by simp [h2 q hq, Mag.eq, Mag.zero]⟩
  rw [asks_runs env o path args f w w1 w2 l l' hf hm hpf hload hfill, runSub_world _ _ _ _ _ hs,
    asks_runs env o path args2 f2 w w1 w2 l l' hf2 hm2 hpf2 hload hfill,
    asks_runs (env.withOrd ord2) o path args2 f2 _ w2 w2 _ _ hf2 hm2 hpf2 hre2 hno,
    runSub_bare _ _ _ _ _ hs2, runSub_ord env ord2 env.ord hord2 hord o f2 w2 l' hs2]
  refine ⟨rfl, ?_⟩
  have := runSub_world env o f2 w2 l' hs2
  show runSub env o f2 w2 l' = _
  exact Prod.ext this rfl

/-! ### Once a day -/

/-- The name of an envelope: account and name. -/
def Envelope.key (e : Envelope M) : Str × Str := (e.account, e.name)

/-- The envelope that a posting names. -/
def EnvPosting.key (q : EnvPosting M) : Str × Str := (q.account, q.envelope)

/-- Specification: no two envelopes have the same account and name. -/
def OneName (l : Ledger M) : Prop := (l.allEnvelopes.map Envelope.key).Nodup

/-- The envelopes that entries move money to or from, in order. -/
def movedTo (es : List (Entry M)) : List (Str × Str) := es.flatMap fun e => e.envelopePostings.map EnvPosting.key

theorem fillLoop_keys (today : Date) (es : List (Envelope M)) (av : Pool M) (qs : List (EnvPosting M))
    (h : Account.fillLoop today es av = .ok qs) : qs.map EnvPosting.key = es.map Envelope.key := by
  induction es generalizing av qs with
  | nil => cases h; rfl
  | cons v es ih =>
    obtain ⟨p, ps, rfl, h1, h2⟩ := fillLoop_cons today v es av qs h
    obtain ⟨h3, h4, _⟩ := fillingPosting_ok _ _ _ _ h1
    rw [List.map_cons, List.map_cons, ih _ _ h2]
    unfold EnvPosting.key Envelope.key
    rw [h3, h4]

theorem fillAll_keys (today : Date) (as : List (Str × Account M)) (ps : List (EnvPosting M))
    (h : Ledger.fillAll today as = .ok ps) :
    ps.map EnvPosting.key = as.flatMap fun p => p.2.envelopes.reverse.map Envelope.key := by
  induction as generalizing ps with
  | nil => cases h; rfl
  | cons p as ih =>
    obtain ⟨k, a⟩ := p
    simp only [Ledger.fillAll, bind, Except.bind, pure, Except.pure] at h
    split at h
    · cases h
    · rename_i qs hq
      split at h
      · cases h
      · rename_i rs hr
        cases h
        rw [List.map_append, ih _ hr, fillLoop_keys _ _ _ _ hq]
        rfl

theorem sameOutside_keys {as bs : List (Str × Account M)} (h : List.Forall₂ SameOutside as bs) :
    bs.flatMap (fun p => p.2.envelopes.map Envelope.key) = as.flatMap fun p => p.2.envelopes.map Envelope.key := by
  have hk : ∀ {xs ys : List (Envelope M)}, List.Forall₂ Envelope.SameButMoney xs ys →
      ys.map Envelope.key = xs.map Envelope.key := by
    intro xs ys h
    induction h with
    | nil => rfl
    | cons h _ ih =>
      have := SameButMoney.fields h
      rw [List.map_cons, List.map_cons, ih]
      unfold Envelope.key
      rw [this.1, this.2.1]
  induction h with
  | nil => rfl
  | cons h _ ih =>
    simp only [List.flatMap_cons, ih]
    unfold Account.envelopes
    rw [List.map_append, List.map_append, hk h.expenses, hk h.goals]

theorem allKeys (l : Ledger M) : l.allEnvelopes.map Envelope.key = l.accounts.flatMap fun p => p.2.envelopes.map Envelope.key := by
  unfold Ledger.allEnvelopes
  rw [List.map_flatMap]

theorem fillLoop_mem (today : Date) (es : List (Envelope M)) (av : Pool M) (qs : List (EnvPosting M))
    (h : Account.fillLoop today es av = .ok qs) : ∀ q ∈ qs, ∃ e ∈ es, ∃ av', e.fillingPosting today av' = .ok q := by
  induction es generalizing av qs with
  | nil => cases h; intro q hq; cases hq
  | cons v es ih =>
    obtain ⟨p, ps, rfl, h1, h2⟩ := fillLoop_cons today v es av qs h
    intro q hq
    rcases List.mem_cons.1 hq with rfl | hq
    · exact ⟨v, by simp, av, h1⟩
    · obtain ⟨e, he, h3⟩ := ih _ _ h2 q hq
      exact ⟨e, by simp [he], h3⟩

/-- What filling writes: postings to different envelopes, none of which was touched today. -/
theorem fillEnvelopes_names (hz0 : Mag.eq (Mag.zero : M) Mag.zero = true) (env : Env) (hord : FairOrder env.ord) (w : World)
    (l : Ledger M) (hl : OneName l) :
    (l.fillEnvelopes env w).1 = w ∨
    ∃ (fs : List (EnvPosting M)) (text s : Str), fs ≠ [] ∧ (fs.map EnvPosting.key).Nodup ∧
      (∀ q ∈ fs, Mag.eq q.amount.mag (Mag.zero : M) = false ∧
        (∃ e ∈ l.allEnvelopes, e.key = q.key ∧ e.lastTx ≠ env.today ∧ q.amount.sym = e.amount.sym) ∧
        ∃ k a qs, (k, a) ∈ l.accounts ∧ a.fillingPostings env.today = .ok qs ∧ q ∈ qs) ∧
      (Ledger.fillEntry env.today fs).asParsable env l.dateFormat = .ok text ∧
      w.file (resolve w.cwd l.filePath) = some s ∧
      (l.fillEnvelopes env w).1 = w.write (resolve w.cwd l.filePath) (s ++ '\n' :: text) := by
  unfold Ledger.fillEnvelopes
  split
  · exact .inl rfl
  · rename_i ps hps
    obtain ⟨_, h2⟩ := fillAll_ok _ _ _ hps
    have hkeys := fillAll_keys _ _ _ hps
    have hnd : (ps.map EnvPosting.key).Nodup := by
      rw [hkeys]
      have hperm : ((env.ord l.accounts).flatMap fun p => p.2.envelopes.reverse.map Envelope.key).Perm
          (l.accounts.flatMap fun p => p.2.envelopes.map Envelope.key) := by
        refine ((hord _ l.accounts).flatMap_right _).trans ?_
        exact List.Perm.flatMap_left _ fun p _ => (List.reverse_perm _).map _
      rw [hperm.nodup_iff, ← allKeys]
      exact hl
    simp only
    split
    · exact .inl rfl
    · rename_i hne
      unfold Ledger.appendEntry
      split
      · exact .inl rfl
      · split
        · exact .inl rfl
        · rename_i text ht
          split
          · exact .inl rfl
          · rename_i w2 hw2
            right
            unfold World.append at hw2
            simp only at hw2
            split at hw2
            · split at hw2
              · rename_i s hs
                refine ⟨_, text, s, by simpa using hne, hnd.sublist (List.filter_sublist.map _), ?_, ht, hs, (Option.some.inj hw2).symm⟩
                intro q hq
                rw [List.mem_filter] at hq
                have hnz : Mag.eq q.amount.mag (Mag.zero : M) = false := by simpa using hq.2
                obtain ⟨k, a, qs, h7, h8, h9⟩ := h2 q hq.1
                have h7' := (hord _ l.accounts).mem_iff.1 h7
                refine ⟨hnz, ?_, k, a, qs, h7', h8, h9⟩
                obtain ⟨e, he, av, h10⟩ := fillLoop_mem _ _ _ _ h8 q h9
                obtain ⟨h11, h12, h13⟩ := fillingPosting_ok _ _ _ _ h10
                refine ⟨e, List.mem_flatMap.2 ⟨(k, a), h7', by simpa using he⟩, ?_, ?_, C37_fill_currency _ _ _ _ h13⟩
                · unfold EnvPosting.key Envelope.key
                  rw [h11, h12]
                · intro ht
                  have := C37_skipped_gets_nothing _ e _ _ (.inr (.inr ht)) h13
                  rw [this] at hnz
                  simp only at hnz
                  rw [hz0] at hnz
                  cases hnz
              · cases hw2
            · cases hw2

/-- The state of a journal between the runs of one day. -/
def SameDay (env : Env) (d : Date) (path : Str) (l0 : Ledger M) (moves : List (Entry M)) (w : World) : Prop :=
  ∃ l, LoadsOn env d w path l ∧ l.dateFormat = l0.dateFormat ∧ l.entries.Perm (l0.entries ++ moves) ∧
    List.Forall₂ SameOutside l0.accounts l.accounts ∧
    (∀ e ∈ l.allEnvelopes, e.key ∈ movedTo moves → e.lastTx = d) ∧
    (movedTo moves).Nodup ∧ (∀ k ∈ movedTo moves, k ∈ l0.allEnvelopes.map Envelope.key) ∧
    ∀ m ∈ moves, IsMove [d] m ∧ m.envelopePostings ≠ []

theorem SameDay.elsewhere {env : Env} {d : Date} {path : Str} {l0 : Ledger M} {moves : List (Entry M)} {w w' : World}
    (hp : path.head? = some '/') (h : SameDay env d path l0 moves w) (h1 : w'.file = w.file) (h2 : w'.canAppend = w.canAppend) :
    SameDay env d path l0 moves w' := by
  obtain ⟨l, h3, h4⟩ := h
  have : w' = { w with cwd := w'.cwd } := by rw [← h1, ← h2]
  rw [this]
  exact ⟨l, h3.elsewhere hp _, h4⟩

theorem sameDay_step (hz0 : Mag.eq (Mag.zero : M) Mag.zero = true) (env : Env) (hord : FairOrder env.ord) (path : Str)
    (hp : path.head? = some '/') (d : Date) (l0 : Ledger M) (hone : OneName l0)
    (hsafe : ∀ e ∈ l0.allEnvelopes, e.SafeSchedule) (w : World) (moves : List (Entry M))
    (hg : SameDay env d path l0 moves w) (r : Run) (hr : r.Reports path) (hday : r.day = d)
    (hwd : WritableDay env l0.dateFormat r.day)
    (hfill : ∀ l w1, Ledger.fromFile (r.env env) r.out.fuel { w with cwd := r.cwd } path = .ok (l, w1) →
      ∀ k a qs, (k, a) ∈ l.accounts → a.fillingPostings r.day = .ok qs → ∀ q ∈ qs,
        Mag.eq q.amount.mag (Mag.zero : M) = false → Printable q.amount) :
    ∃ more : List (Entry M), SameDay env d path l0 (moves ++ more) (r.exec M env w) := by
  subst hday
  rcases exec_world (M := M) env path r hr w with ⟨h1, h2⟩ | ⟨l, w1, hl, he⟩
  · exact ⟨[], by rw [List.append_nil]; exact hg.elsewhere hp h1 h2⟩
  obtain ⟨⟨is, hsteps⟩, hfile, hcan⟩ := fromFile_sound _ _ _ _ _ _ hl
  have hpath : l.filePath = path := hsteps.filePath.1
  obtain ⟨l', ⟨fuel', cwd', hl'⟩, g2, g3, g4, g5, g6, g7, g8⟩ := id hg
  have hll : l' = l := by
    have h3 : Ledger.fromFile (env.on r.day) r.out.fuel { w with cwd := r.cwd } path = .ok (l, w1) :=
      (C53_loading (env.on r.day) r.ord env.ord hr.fair hord _ _ _ _).1 hl
    rw [fromFile_cwd _ _ _ _ _ hp] at h3
    exact congrArg Prod.fst (fromFile_unique _ _ _ _ _ _ _ hl' h3)
  subst hll
  have hone' : OneName l' := by
    unfold OneName
    rw [allKeys, sameOutside_keys g4, ← allKeys]
    exact hone
  rcases fillEnvelopes_names hz0 (r.env env) hr.fair w1 l' hone' with h1 | ⟨fs, text, s, hne, hnd, hfs, ht, hs, hw2⟩
  · exact ⟨[], by rw [List.append_nil, he, h1]; exact hg.elsewhere hp hfile hcan⟩
  rw [← he] at hw2
  have hplain := loaded_plain _ _ _ _ _ _ hl
  have hinv := loaded_inv _ _ _ _ _ _ hl
  have hq : ∀ q ∈ fs, (Posting.envelope q).Writable := by
    intro q hq
    obtain ⟨hz, _, k, a, qs, hka, hqs, hqq⟩ := hfs q hq
    obtain ⟨e, hem, h3, h4, h5⟩ := fillingPostings_of _ a qs hqs q hqq
    obtain ⟨hn1, hn2⟩ := hplain.named k a hka
    obtain ⟨h6, h7⟩ := hn2 e hem
    exact ⟨by rw [h3, h7]; exact hn1, by rw [h4]; exact h6, hfill l' w1 hl k a qs hka hqs q hqq hz⟩
  generalize hx : Ledger.fillEntry r.day fs = x
  have hx' : Ledger.fillEntry (r.env env).today fs = x := hx
  have hmade : MoveOf x.rounded (fs.map fun q => ⟨q.account, q.envelope, q.amount.rounded⟩) := by
    refine ⟨by simpa using hne, ?_⟩
    rw [← hx]
    show (fs.map Posting.envelope).map Posting.rounded = _
    rw [List.map_map, List.map_map]
    rfl
  have hposts := moveOf_has hmade
  have hkeys : x.rounded.envelopePostings.map EnvPosting.key = fs.map EnvPosting.key := by
    rw [hposts.2, List.map_map]
    rfl
  have hmoved : movedTo (moves ++ [x.rounded]) = movedTo moves ++ fs.map EnvPosting.key := by
    unfold movedTo
    rw [List.flatMap_append]
    simp only [List.flatMap_cons, List.flatMap_nil, List.append_nil, hkeys]
  have hxd : x.rounded.date = r.day := by rw [← hx]; rfl
  obtain ⟨accs, hadd, hout⟩ := addEntry_move (env.on r.day) hord hr.inner l' x.rounded _ hmade (by
    intro e hel
    obtain ⟨p, hpm, hep⟩ := List.mem_flatMap.1 hel
    obtain ⟨e0, he0, hs0⟩ := sameOutside_envelopes g4 e hel
    have hf := SameButMoney.fields hs0
    refine ⟨(hinv.wf p.1 p.2 hpm).currency e hep, ?_, fun q hq' ha hn => ?_⟩
    · have := hsafe e0 he0
      unfold Envelope.SafeSchedule at this ⊢
      rw [hf.2.2.2.2.2.1]
      exact this
    · obtain ⟨q0, hq0, rfl⟩ := List.mem_map.1 hq'
      obtain ⟨_, ⟨e1, he1, h3, _, h5⟩, _⟩ := hfs q0 hq0
      show q0.amount.sym = _
      have : e1 = e := List.inj_on_of_nodup_map hone' he1 hel (by rw [h3]; exact Prod.ext ha hn)
      rw [h5, this])
  refine ⟨[x.rounded], { l' with accounts := accs, entries := stableSort (fun a b => Date.lt a.date b.date) (l'.entries ++ [x.rounded]) },
    ?_, g2, ?_, forall₂_trans (P := SameOutside) (Q := SameOutside) (fun _ _ _ => SameOutside.trans) g4 hout, ?_, ?_, ?_, ?_⟩
  · obtain ⟨ds, hd1, hd2, hd3, hd4⟩ := hwd
    have hw : x.Writable (env.on r.day) l'.dateFormat ds := by
      rw [g2, ← hx]
      refine ⟨hd1, hd3, hd2, ⟨⟨[s%"move", s%"to", s%"envelopes"], by decide, rfl⟩,
          (by decide : NoComment s%"move to envelopes"), (by decide : '[' ∉ s%"move to envelopes")⟩,
          by rintro p ⟨⟩, ?_, ?_⟩
      · intro c hc
        have : some s%"automatically generated by silverfox" = some c := hc
        cases this
        decide
      · intro p hp
        obtain ⟨q, hqm, rfl⟩ := List.mem_map.1 hp
        exact hq q hqm
    have ht' : x.asParsable (env.on r.day) l'.dateFormat = .ok text := by
      rw [← ht, hx']
      rfl
    have hP : resolve w1.cwd l'.filePath = resolve w.cwd path := by rw [hpath]; exact absolute_anywhere path hp _ _
    rw [hP] at hs hw2
    have := append_reload_any (env.on r.day) fuel' w _ (r.exec M env w) path l' x ds text s hl' hw hd4
      (by rw [← hx]; exact fillEntry_validate _ _) (by
        intro p hp he'
        rw [← hx] at hp
        obtain ⟨q, _, rfl⟩ := List.mem_map.1 hp
        cases he') ht' (by rw [← hfile]; exact hs)
      (by rw [hw2]; show (if _ then _ else _) = _; rw [if_pos rfl])
      (by intro p hp'; rw [hw2]; show (if p = _ then _ else w1.file p) = _; rw [if_neg hp', hfile])
      (by rw [hw2]; exact hcan)
    rw [hadd] at this
    refine ⟨fuel', cwd', ?_⟩
    rw [fromFile_cwd _ _ _ _ _ hp] at this
    exact this
  · refine (stableSort_perm _ _).trans ?_
    rw [← List.append_assoc]
    exact g3.append_right _
  · -- the envelopes named have been touched today
    intro e' he' hk
    obtain ⟨p', hp', hep'⟩ := List.mem_flatMap.1 he'
    obtain ⟨accs', h1, h2, _⟩ := addEntry_ok _ _ _ _ hadd
    have : accs = accs' := congrArg Ledger.accounts h2
    subst this
    obtain ⟨a, ha, hproc⟩ := (processAll_ok _ _ _ _ h1).2 p'.1 p'.2 hp'
    obtain ⟨e, hem, hpe⟩ := forall₂_back (C31_envelopes_independent _ a p'.2 _ hproc) e' hep'
    have hel : e ∈ l'.allEnvelopes := List.mem_flatMap.2 ⟨(p'.1, a), ha, hem⟩
    rw [processEntry_manual _ _ _ hposts.1] at hpe
    obtain ⟨k1, _, _, k4⟩ := applyAll_keeps _ _ _ _ _ hpe
    have hf := SameButMoney.fields k1
    have hkey : e'.key = e.key := by unfold Envelope.key; rw [hf.1, hf.2.1]
    by_cases hm : manualMoves x.rounded e = []
    · rw [hm] at hpe
      have hee : e' = e := (Except.ok.inj hpe).symm
      rw [hee] at hk ⊢
      rw [hmoved] at hk
      rcases List.mem_append.1 hk with hk | hk
      · exact g5 e hel hk
      · exfalso
        rw [← hkeys] at hk
        obtain ⟨q, hq1, hq2⟩ := List.mem_map.1 hk
        rw [manualMoves_eq, List.map_eq_nil_iff, List.filter_eq_nil_iff] at hm
        have := hm q hq1
        have hnm : q.Names e := ⟨congrArg Prod.fst hq2, congrArg Prod.snd hq2⟩
        simp [hnm] at this
    · rw [k4 hm, hxd]
  · rw [hmoved]
    refine List.nodup_append.2 ⟨g6, hnd, ?_⟩
    rintro k hk1 k' hk2 rfl
    obtain ⟨q, hq1, hq2⟩ := List.mem_map.1 hk2
    obtain ⟨_, ⟨e, hem, h3, h4, _⟩, _⟩ := hfs q hq1
    exact h4 (g5 e hem (by rw [h3, hq2]; exact hk1))
  · intro k hk
    rw [hmoved] at hk
    rcases List.mem_append.1 hk with hk | hk
    · exact g7 k hk
    · obtain ⟨q, hq1, hq2⟩ := List.mem_map.1 hk
      obtain ⟨_, ⟨e, hem, h3, _⟩, _⟩ := hfs q hq1
      have : e.key ∈ l'.allEnvelopes.map Envelope.key := List.mem_map.2 ⟨e, hem, rfl⟩
      rw [allKeys, sameOutside_keys g4, ← allKeys, h3, hq2] at this
      exact this
  · intro m hm
    rcases List.mem_append.1 hm with hm | hm
    · exact g8 m hm
    · rw [List.mem_singleton.1 hm]
      refine ⟨⟨by rw [hxd]; simp, by rw [← hx]; rfl, by rw [← hx]; rfl, fun p hp => ?_⟩, ?_⟩
      · rw [hmade.2] at hp
        obtain ⟨q, _, rfl⟩ := List.mem_map.1 hp
        exact ⟨q, rfl⟩
      · rw [hposts.2]; exact hmade.1

theorem sameDay_runs (hz0 : Mag.eq (Mag.zero : M) Mag.zero = true) (env : Env) (hord : FairOrder env.ord) (path : Str)
    (hp : path.head? = some '/') (d : Date) (l0 : Ledger M) (hone : OneName l0) (hsym : PlainSymbols l0)
    (hsafe : ∀ e ∈ l0.allEnvelopes, e.SafeSchedule) (hwd : WritableDay env l0.dateFormat d) (runs : List Run) :
    ∀ (w : World) (moves : List (Entry M)), SameDay env d path l0 moves w → (∀ r ∈ runs, r.Reports path ∧ r.day = d) →
    FillsAre (fun a : Amount M => FmtOk (round8 a.mag)) env path runs w →
    ∃ more : List (Entry M), SameDay env d path l0 (moves ++ more) (afterRuns M env runs w) := by
  induction runs with
  | nil => intro w moves hg _ _; exact ⟨[], by rw [List.append_nil]; exact hg⟩
  | cons r rs ih =>
    intro w moves hg hr hf
    obtain ⟨h1, h2⟩ := hr r (by simp)
    obtain ⟨m1, h3⟩ := sameDay_step hz0 env hord path hp d l0 hone hsafe w moves hg r h1 h2 (by rw [h2]; exact hwd) (by
      intro l w1 hl k a qs hka hqs q hq hz
      obtain ⟨e, he, _, _, h4⟩ := fillingPostings_of _ a qs hqs q hq
      obtain ⟨l', ⟨fuel', cwd', hl'⟩, _, _, g4, _⟩ := hg
      have hll : l' = l := by
        have h3 : Ledger.fromFile (env.on r.day) r.out.fuel { w with cwd := r.cwd } path = .ok (l, w1) :=
          (C53_loading (env.on r.day) r.ord env.ord h1.fair hord _ _ _ _).1 hl
        rw [fromFile_cwd _ _ _ _ _ hp, h2] at h3
        exact congrArg Prod.fst (fromFile_unique _ _ _ _ _ _ _ hl' h3)
      subst hll
      obtain ⟨e0, he0, hs0⟩ := sameOutside_envelopes g4 e (List.mem_flatMap.2 ⟨(k, a), hka, he⟩)
      have hfld := SameButMoney.fields hs0
      refine ⟨hf.1 l' w1 hl k a qs hka hqs q hq hz, fun s hs => ?_⟩
      have := hsym e0 he0 s (by rw [← hfld.2.2.1, ← h4]; exact hs)
      exact ⟨this.1, this.2.1, isOp_false this.2.2⟩)
    obtain ⟨m2, h4⟩ := ih _ _ h3 (fun r hr' => hr r (by simp [hr'])) hf.2
    exact ⟨m1 ++ m2, by rw [← List.append_assoc]; exact h4⟩

theorem once_a_day (hz0 : Mag.eq (Mag.zero : M) Mag.zero = true) (env : Env) (hord : FairOrder env.ord) (path : Str)
    (hp : path.head? = some '/') (d : Date) (w : World) (l0 : Ledger M) (hload : LoadsOn env d w path l0) (hone : OneName l0)
    (hsym : PlainSymbols l0) (hsafe : ∀ e ∈ l0.allEnvelopes, e.SafeSchedule) (hwd : WritableDay env l0.dateFormat d)
    (runs : List Run) (hr : ∀ r ∈ runs, r.Reports path ∧ r.day = d)
    (hf : FillsAre (fun a : Amount M => FmtOk (round8 a.mag)) env path runs w) :
    ∃ (l : Ledger M) (moves : List (Entry M)), LoadsOn env d (afterRuns M env runs w) path l ∧
      l.entries.Perm (l0.entries ++ moves) ∧ (∀ m ∈ moves, IsMove [d] m) ∧ (movedTo moves).Nodup ∧
      (∀ k ∈ movedTo moves, k ∈ l0.allEnvelopes.map Envelope.key) ∧ moves.length ≤ l0.allEnvelopes.length := by
  have h0 : SameDay env d path l0 [] w := by
    refine ⟨l0, hload, rfl, by simp, forall₂_self _ fun p _ => ⟨rfl, rfl, rfl,
      forall₂_self _ fun e _ => rfl, forall₂_self _ fun e _ => rfl⟩, ?_, ?_, ?_, ?_⟩
    · intro e _ h; cases h
    · exact List.nodup_nil
    · intro k h; cases h
    · intro m h; cases h
  obtain ⟨moves, l, h1, h2, h3, h4, h5, h6, h7, h8⟩ := sameDay_runs hz0 env hord path hp d l0 hone hsym hsafe hwd runs w [] h0 hr hf
  rw [List.nil_append] at *
  refine ⟨l, moves, h1, h3, fun m hm => (h8 m hm).1, h6, h7, ?_⟩
  have hlen : (movedTo moves).length ≤ (l0.allEnvelopes.map Envelope.key).length := (List.subperm_of_subset h6 h7).length_le
  have hle : moves.length ≤ (movedTo moves).length := by
    clear h1 h2 h3 h4 h5 h6 h7 hlen
    induction moves with
    | nil => exact Nat.zero_le _
    | cons m ms ih =>
      have hi := ih fun m hm => h8 m (by simp [hm])
      have hm := (h8 m (by simp)).2
      have : 0 < m.envelopePostings.length := List.length_pos_iff.2 hm
      unfold movedTo at hi ⊢
      rw [List.flatMap_cons, List.length_append, List.length_map, List.length_cons]
      omega
  rw [List.length_map] at hlen
  omega

/-- **C110, in part.** In the arithmetic of the program: however often reports are asked for on one day, each envelope
is given money at most once, so no more entries are appended than there are envelopes. The amounts moved are finite;
envelopes have different names, schedules always have a last due date (C28), and the path is absolute (C60). Missing:
that the second run changes nothing, which is false (`C110_asking_again_moves_money`). -/
theorem C110_once_a_day_partial (env : Env) (hord : FairOrder env.ord) (path : Str) (hp : path.head? = some '/')
    (d : Date) (w : World) (l0 : Ledger F64) (hload : LoadsOn env d w path l0) (hone : OneName l0)
    (hsym : PlainSymbols l0) (hsafe : ∀ e ∈ l0.allEnvelopes, e.SafeSchedule) (hwd : WritableDay env l0.dateFormat d)
    (runs : List Run) (hr : ∀ r ∈ runs, r.Reports path ∧ r.day = d)
    (hf : FillsAre (fun a : Amount F64 => (round8 a.mag).finite = true) env path runs w) :
    ∃ (l : Ledger F64) (moves : List (Entry F64)), LoadsOn env d (afterRuns F64 env runs w) path l ∧
      l.entries.Perm (l0.entries ++ moves) ∧ (∀ m ∈ moves, IsMove [d] m) ∧ (movedTo moves).Nodup ∧
      (∀ k ∈ movedTo moves, k ∈ l0.allEnvelopes.map Envelope.key) ∧ moves.length ≤ l0.allEnvelopes.length := by
  refine once_a_day (by decide) env hord path hp d w l0 hload hone hsym hsafe hwd runs hr ?_
  clear hr hload
  induction runs generalizing w with
  | nil => trivial
  | cons r rs ih =>
    exact ⟨fun l w1 h k a qs h1 h2 q h3 h4 => fmtOk_f64 (hf.1 l w1 h k a qs h1 h2 q h3 h4), ih _ hf.2⟩

/-- The same in exact arithmetic, with amounts of any number of decimals. -/
theorem C110_once_a_day_exact_partial (env : Env) (hord : FairOrder env.ord) (path : Str) (hp : path.head? = some '/')
    (d : Date) (w : World) (l0 : Ledger Rat) (hload : LoadsOn env d w path l0) (hone : OneName l0)
    (hsym : PlainSymbols l0) (hsafe : ∀ e ∈ l0.allEnvelopes, e.SafeSchedule) (hwd : WritableDay env l0.dateFormat d)
    (runs : List Run) (hr : ∀ r ∈ runs, r.Reports path ∧ r.day = d) :
    ∃ (l : Ledger Rat) (moves : List (Entry Rat)), LoadsOn env d (afterRuns Rat env runs w) path l ∧
      l.entries.Perm (l0.entries ++ moves) ∧ (∀ m ∈ moves, IsMove [d] m) ∧ (movedTo moves).Nodup ∧
      (∀ k ∈ movedTo moves, k ∈ l0.allEnvelopes.map Envelope.key) ∧ moves.length ≤ l0.allEnvelopes.length := by
  refine once_a_day (by decide) env hord path hp d w l0 hload hone hsym hsafe hwd runs hr ?_
  clear hr hload
  induction runs generalizing w with
  | nil => trivial
  | cons r rs ih => exact ⟨fun _ _ _ _ _ _ _ _ q _ _ => fmtOk_rat _, ih _⟩

/-! ### Cases -/

instance (f : Frequency) : Decidable f.Safe := by cases f <;> (simp only [Frequency.Safe]; infer_instance)
instance (d : Date) : Decidable d.Inner := by unfold Date.Inner; infer_instance
instance (f : Frequency) : Decidable f.Inner := by cases f <;> (simp only [Frequency.Inner]; infer_instance)
instance (e : Envelope M) : Decidable e.SafeSchedule := by unfold Envelope.SafeSchedule; infer_instance
instance (l : Ledger M) : Decidable (OneName l) := by unfold OneName; infer_instance

/-- Two goals, and two incomes of 10 and of 20 cents. -/
def exCents : World := disk [("j", "account a\n  goal trip by 2024/12/18\n    amount 10\n    funding aggressive
  goal bike by 2024/12/20\n    amount 10\n    funding aggressive
account b\n2024/01/02 * pay\n a 0.10\n b -0.10\n2024/01/03 * pay\n a 0.20\n b -0.20\n")]

/-- The journal after asking for the balance on the 15th of June. -/
def afterBalance (M : Type) [Mag M] (w : World) : World :=
  (mainProgram M (stdEnv june15) exOutside [s%"balance", s%"-f", s%"/h/j"] w).1

/-- **C110.** False in the arithmetic of the program: of 10 and 20 cents, 30 cents are moved to the first goal. Asking
again on the same day, what 0.1 + 0.2 is more than 0.3 is moved to the other goal, and written as a movement of 0. -/
theorem C110_asking_again_moves_money :
    ∃ s t, (afterBalance F64 exCents).file [s%"h", s%"j"] = some s ∧
      s = (exCents.file [s%"h", s%"j"]).getD [] ++ '\n' :: s%"2024/06/15 ~ move to envelopes // automatically generated by silverfox\n    envelope a bike                                     0.3\n" ∧
      (afterBalance F64 (afterBalance F64 exCents)).file [s%"h", s%"j"] = some t ∧
      t = s ++ '\n' :: s%"2024/06/15 ~ move to envelopes // automatically generated by silverfox\n    envelope a trip                                     0\n" := by
  refine ⟨_, _, ?_, rfl, ?_, rfl⟩
  · decide +kernel
  · decide +kernel

/-- **C62** is about the amounts in memory. As written, the movement may be one of 0, and then the same money is moved
again on the next day, and the day after. -/
theorem C62_written_as_zero :
    let on := fun (d : Date) (w : World) => (mainProgram F64 (stdEnv d) exOutside [s%"balance", s%"-f", s%"/h/j"] w).1
    let w := on june15 exCents
    (on ⟨2024, 6, 17, by decide⟩ (on ⟨2024, 6, 16, by decide⟩ w)).file [s%"h", s%"j"] =
      some ((w.file [s%"h", s%"j"]).getD [] ++
        '\n' :: s%"2024/06/16 ~ move to envelopes // automatically generated by silverfox\n    envelope a bike                                     0\n" ++
        '\n' :: s%"2024/06/17 ~ move to envelopes // automatically generated by silverfox\n    envelope a bike                                     0\n") := by
  decide +kernel

/-- In exact arithmetic the second run changes nothing. -/
example : (afterBalance Rat (afterBalance Rat exCents)).file [s%"h", s%"j"] = (afterBalance Rat exCents).file [s%"h", s%"j"] ∧
    (afterBalance Rat exCents).file [s%"h", s%"j"] ≠ exCents.file [s%"h", s%"j"] := by decide +kernel

theorem exAsk (o : Outside) (c : Str) (sub : Subcommand)
    (h : Flags.parse [c, s%"-f", s%"/h/j"] = .ok (some ⟨some s%"/h/j", sub, false, none, none⟩)) (hs : sub ≠ .import_) :
    Asks o s%"/h/j" [c, s%"-f", s%"/h/j"] := ⟨_, h, hs, rfl, rfl⟩

/-- The conditions of `C110_asking_again_partial` hold of this journal: after the balance, the envelopes are shown as if
they had been asked for first, from another directory and with the tables in reverse. -/
example : ∃ w2 : World, w2 = afterBalance Rat exCents ∧ w2.file [s%"h", s%"j"] ≠ exCents.file [s%"h", s%"j"] ∧
    mainProgram Rat ((stdEnv june15).withOrd List.reverse) exOutside [s%"env", s%"-f", s%"/h/j"] { w2 with cwd := [] } =
      (w2, (mainProgram Rat (stdEnv june15) exOutside [s%"env", s%"-f", s%"/h/j"] exCents).2) := by
  have h : ∃ r : Ledger Rat × World, Ledger.fromFile (stdEnv june15) 9 exCents s%"/h/j" = .ok r ∧
      ((∀ e ∈ r.1.allEnvelopes, e.amount.sym = none) ∧ r.1.dateFormat = s%"%Y/%m/%d" ∧
        (∃ l', (r.1.fillEnvelopes (stdEnv june15) r.2).2 = .ok l' ∧ (l'.entries.length = 3)) ∧
        ∀ p ∈ r.1.accounts, ∀ qs, p.2.fillingPostings june15 = .ok qs → ∀ q ∈ qs, round8 q.amount.mag = q.amount.mag) := by
    have h0 : ∃ r : Ledger Rat × World, Ledger.fromFile (stdEnv june15) 9 exCents s%"/h/j" = .ok r ∧
      ((∀ e ∈ r.1.allEnvelopes, e.amount.sym = none) ∧ r.1.dateFormat = s%"%Y/%m/%d" ∧
        (∃ l', (r.1.fillEnvelopes (stdEnv june15) r.2).2 = .ok l' ∧ (l'.entries.length = 3)) ∧
        ∀ p ∈ r.1.accounts, ∃ qs, p.2.fillingPostings june15 = .ok qs ∧ (∀ q ∈ qs, round8 q.amount.mag = q.amount.mag)) := by
      decide +kernel
    obtain ⟨r, h1, h2, h3, h4, h5⟩ := h0
    refine ⟨r, h1, h2, h3, h4, fun p hp qs hqs => ?_⟩
    obtain ⟨qs', h6, h7⟩ := h5 p hp
    rw [hqs] at h6
    cases h6
    exact h7
  obtain ⟨⟨l, w1⟩, h1, h2, h3, ⟨l', h4, _⟩, h5⟩ := h
  obtain ⟨k1, k2⟩ := C110_asking_again_partial (stdEnv june15) (fun _ l => List.Perm.refl l) List.reverse
    (fun _ l => List.reverse_perm l) exOutside s%"/h/j" rfl [s%"balance", s%"-f", s%"/h/j"] [s%"env", s%"-f", s%"/h/j"]
    (exAsk _ _ .balance (by decide +kernel) (by decide)) (exAsk _ _ .envelopes (by decide +kernel) (by decide))
    exCents w1 (l.fillEnvelopes (stdEnv june15) w1).1 l l' h1 (Prod.ext rfl h4)
    (by rw [h3]; exact writableDay_default _ rfl rfl _ (by decide))
    (fun e he s hs => by rw [h2 e he] at hs; cases hs) (fun k a qs hka => h5 (k, a) hka qs) []
  refine ⟨_, k1.symm, ?_, k2⟩
  rw [← k1]
  decide +kernel

/-- Asking for the balance three times on the 15th of June. -/
def exThrice : List Run := List.replicate 3 ⟨june15, id, [], [s%"balance", s%"-f", s%"/h/j"], exOutside⟩

/-- The conditions of `C110_once_a_day_partial` hold of this journal, and two entries are appended, as many as there are
envelopes. -/
example : ∃ (l : Ledger F64) (moves : List (Entry F64)),
    LoadsOn (stdEnv june15) june15 (afterRuns F64 (stdEnv june15) exThrice exCents) s%"/h/j" l ∧
      (movedTo moves).Nodup ∧ moves.length = 2 := by
  have h : ∃ r : Ledger F64 × World, Ledger.fromFile (stdEnv june15) 9 exCents s%"/h/j" = .ok r ∧
      (OneName r.1 ∧ (∀ e ∈ r.1.allEnvelopes, e.SafeSchedule) ∧ (∀ e ∈ r.1.allEnvelopes, e.amount.sym = none) ∧
        r.1.dateFormat = s%"%Y/%m/%d" ∧ r.1.entries.length = 2) := by
    decide +kernel
  obtain ⟨⟨l0, w1⟩, h1, h2, h2', h3, h4, h5⟩ := h
  obtain ⟨_, h6, h7⟩ := fromFile_sound _ _ _ _ _ _ h1
  have hload : LoadsOn (stdEnv june15) june15 exCents s%"/h/j" l0 := ⟨9, w1.cwd, by rw [← h6, ← h7]; exact h1⟩
  have fin : ∀ w : World, (∃ r : Ledger F64 × World, Ledger.fromFile (stdEnv june15) 9 { w with cwd := [] } s%"/h/j" = .ok r ∧
      (∀ p ∈ r.1.accounts, ∃ qs, p.2.fillingPostings june15 = .ok qs ∧ (∀ q ∈ qs, (round8 q.amount.mag).finite = true))) →
      ∀ (l : Ledger F64) (w1 : World), Ledger.fromFile (stdEnv june15) 9 { w with cwd := [] } s%"/h/j" = .ok (l, w1) →
      ∀ k a qs, (k, a) ∈ l.accounts → a.fillingPostings june15 = .ok qs → ∀ q ∈ qs,
        Mag.eq q.amount.mag (Mag.zero : F64) = false → (round8 q.amount.mag).finite = true := by
    rintro w ⟨r, hr1, hr2⟩ l w1 hl k a qs hka hqs q hq _
    rw [hl] at hr1
    cases hr1
    obtain ⟨qs', h8, h9⟩ := hr2 (k, a) hka
    rw [hqs] at h8
    cases h8
    exact h9 q hq
  obtain ⟨l, moves, g1, g2, _, g4, _, _⟩ := C110_once_a_day_partial (stdEnv june15) (fun _ l => List.Perm.refl l) s%"/h/j" rfl
    june15 exCents l0 hload h2 (fun e he s hs => by rw [h3 e he] at hs; cases hs) h2'
    (by rw [h4]; exact writableDay_default _ rfl rfl _ (by decide)) exThrice (by
      intro r hr
      rw [(List.mem_replicate.1 hr).2]
      refine ⟨⟨by decide, fun _ l => List.Perm.refl l, fun f hf => ?_⟩, rfl⟩
      have : f = ⟨some s%"/h/j", .balance, false, none, none⟩ := by
        have h : Flags.parse [s%"balance", s%"-f", s%"/h/j"] = .ok (some ⟨some s%"/h/j", .balance, false, none, none⟩) := by
          decide +kernel
        exact Option.some.inj (Except.ok.inj (hf.symm.trans h))
      subst this
      exact ⟨by decide, .inl rfl⟩)
    ⟨fin _ (by decide +kernel), fin _ (by decide +kernel), fin _ (by decide +kernel), trivial⟩
  refine ⟨l, moves, g1, g4, ?_⟩
  have hlen : ∃ r : Ledger F64 × World,
      Ledger.fromFile (stdEnv june15) 9 (afterRuns F64 (stdEnv june15) exThrice exCents) s%"/h/j" = .ok r ∧
      (r.1.entries.length = 4) := by decide +kernel
  obtain ⟨r, hr1, hr2⟩ := hlen
  obtain ⟨fuel, cwd, g1⟩ := g1
  have : r.1 = l := congrArg Prod.fst (fromFile_unique _ _ _ _ _ _ _ hr1 g1)
  rw [← this] at g2
  have := g2.length_eq
  rw [List.length_append, hr2, h5] at this
  omega

end Silverfox
