import Verif.Proof.Complete4

set_option linter.unusedSimpArgs false
set_option linter.unusedVariables false
namespace Verif
open Item PTree Lua P Grammar

/-! ### names, parameters, function names -/

theorem c_nameTailNil : Compl .nameTail [] := by
  intro rec va f rest hf ev cur st Q hq
  simp [yieldL] at hf ⊢
  simpa using hq [] ev f (by simp [toTreeL]) hf

theorem c_nameTailCons (ts) (h : Compl .nameTail ts) : Compl .nameTail (.tok .comma :: nameT :: ts) := by
  intro rec va f rest hf ev cur st Q hq
  obtain ⟨f', rfl⟩ : ∃ f', f = f' + 1 := ⟨f - 1, by omega⟩
  simp [yieldL, PTree.yield] at hf
  ynorm
  rw [multiNameRLoop]
  simp only [wpF_bind, wpF_atK, wpF_ite, wpF_pure, wpF_bump, lookahead_cons]
  refine ⟨fun _ => ⟨by simp, ?_⟩, fun h => by simp at h⟩
  have key : ∀ (ev' : Nat), wpF (nameR rec) ⟨.ident :: (yieldL ts ++ rest), ev', .tok .comma :: cur, st⟩
      fun _ s' => wpF (multiNameRLoop rec va f') s' Q := by
    intro ev'
    refine (nameR_runs rec _).use ?_
    intro _ i1 e1 h1
    refine h rec va f' rest (by simp; omega) _ _ _ _ ?_
    intro items ev'' f'' ht hlt
    have := hq (.tok .comma :: (i1 ++ items)) ev'' f'' (by simp [toTreeL, toTree, h1, ht]) hlt
    simpa using this
  cases va <;> simp <;> exact key _

theorem multiNameR_runs (ts) (h : Compl .nameTail ts) (f rec va rest)
    (hf : (yieldL ts ++ rest).length < f) (hc : la rest ≠ .comma) :
    Runs (multiNameR f rec va) (.ident :: (yieldL ts ++ rest)) [.node .multiName (nameT :: ts)] rest := by
  refine runs_intro (by ynorm) ?_
  intro ev cur st
  simp only [multiNameR, wpF_bind, wpF_start]
  have key : wpF (nameR (rec.union (TokenSet.new [.comma])))
      ⟨.ident :: (yieldL ts ++ rest), ev + 1, [], ⟨ev, false, [], cur⟩ :: st⟩
      fun _ s' => wpF (multiNameRLoop (rec.union (TokenSet.new [.comma])) va f) s' fun _ s' =>
        wpF (complete ev .multiName) s' fun _ s' => RPost rest cur st [.node .multiName (nameT :: ts)] s' := by
    refine (nameR_runs _ _).use ?_
    intro _ i1 e1 h1
    refine h _ va f rest hf _ _ _ _ ?_
    intro items ev'' f'' ht hlt
    obtain ⟨g, rfl⟩ : ∃ g, f'' = g + 1 := ⟨f'' - 1, by omega⟩
    simp only [multiNameRLoop, wpF_bind, wpF_atK, wpF_ite, wpF_pure]
    refine ⟨fun h => absurd (by simpa using h) hc, fun _ => ?_⟩
    simp
    exact RPost.mk [.node ev .multiName [] (i1 ++ items)] (by simp) (by simp [toTreeL, toTree, h1, ht])
  cases va <;> simp <;> simpa using key

theorem c_paramsEmpty : Compl .params [.node .paramList [.tok .lParen, .tok .rParen]] := by
  rintro p ⟨rfl⟩
  refine ⟨⟨_, by ynorm; rfl⟩, fun f rest hf => ?_⟩
  ynorm
  refine runsN_intro (by ynorm) ?_
  intro ev cur st
  simp [paramList, expect, PARAM_END, TokenSet.contains_new]
  exact RPostN.mk (by simp [toTree, toTreeL])

theorem c_paramsNames (ts) (h : Compl .nameTail ts) : Compl .params
    [.node .paramList [.tok .lParen, .node .multiName (nameT :: ts), .tok .rParen]] := by
  rintro p ⟨rfl⟩
  refine ⟨⟨_, by ynorm; rfl⟩, fun f rest hf => ?_⟩
  simp [yieldL, PTree.yield] at hf
  ynorm
  refine runsN_intro (by ynorm) ?_
  intro ev cur st
  simp [paramList, expect, PARAM_END, TokenSet.contains_new]
  refine (multiNameR_runs ts h f STMT_RECOVERY true (.rParen :: rest) (by simp; omega) (by simp)).use ?_
  intro _ i1 e1 h1
  simp
  exact RPostN.mk (by simp [toTree, toTreeL, h1])

theorem c_paramsVararg : Compl .params
    [.node .paramList [.tok .lParen, .node .multiName [], .tok .tripleDot, .tok .rParen]] := by
  rintro p ⟨rfl⟩
  refine ⟨⟨_, by ynorm; rfl⟩, fun f rest hf => ?_⟩
  ynorm
  refine runsN_intro (by ynorm) ?_
  intro ev cur st
  simp [paramList, expect, PARAM_END, TokenSet.contains_new, multiNameR]
  exact RPostN.mk (by simp [toTree, toTreeL])

theorem c_paramsNamesVararg (ts) (h : Compl .nameTail ts) : Compl .params
    [.node .paramList [.tok .lParen, .node .multiName (nameT :: (ts ++ [.tok .comma])), .tok .tripleDot,
          .tok .rParen]] := by
  rintro p ⟨rfl⟩
  refine ⟨⟨_, by ynorm; rfl⟩, fun f rest hf => ?_⟩
  simp [yieldL, PTree.yield] at hf
  ynorm
  refine runsN_intro (by ynorm) ?_
  intro ev cur st
  simp [paramList, expect, PARAM_END, TokenSet.contains_new, multiNameR]
  refine (nameR_runs _ _).use ?_
  intro _ i1 e1 h1
  refine h _ true f (.comma :: .tripleDot :: .rParen :: rest) (by simp; omega) _ _ _ _ ?_
  intro items ev'' f'' ht hlt
  obtain ⟨g, rfl⟩ : ∃ g, f'' = g + 1 := ⟨f'' - 1, by omega⟩
  simp [multiNameRLoop]
  exact RPostN.mk (by simp [toTree, toTreeL, h1, ht])

theorem c_paramsNoComma (ts) (h : Compl .nameTail ts) : Compl .params
    [.node .paramList [.tok .lParen, .node .multiName (nameT :: ts), .tok .tripleDot, .tok .rParen]] := by
  rintro p ⟨rfl⟩
  refine ⟨⟨_, by ynorm; rfl⟩, fun f rest hf => ?_⟩
  simp [yieldL, PTree.yield] at hf
  ynorm
  refine runsN_intro (by ynorm) ?_
  intro ev cur st
  simp [paramList, expect, PARAM_END, TokenSet.contains_new]
  refine (multiNameR_runs ts h f STMT_RECOVERY true (.tripleDot :: .rParen :: rest) (by simp; omega) (by simp)).use ?_
  intro _ i1 e1 h1
  simp
  exact RPostN.mk (by simp [toTree, toTreeL, h1])

theorem c_pathNil : Compl .pathTail [] := by
  refine ⟨Or.inl rfl, fun f rest hr hf ev cur st Q hq => ?_⟩
  simp [yieldL] at hf ⊢
  simpa using hq [] ev f (by simp [toTreeL]) hf

theorem c_pathCons (ts) (h : Compl .pathTail ts) : Compl .pathTail (.tok .dot :: nameRefT :: ts) := by
  refine ⟨Or.inr ⟨_, by ynorm; rfl⟩, fun f rest hr hf ev cur st Q hq => ?_⟩
  obtain ⟨f', rfl⟩ : ∃ f', f = f' + 1 := ⟨f - 1, by omega⟩
  simp [yieldL, PTree.yield] at hf
  ynorm
  have hla : lookahead (yieldL ts ++ rest) 0 ≠ .lParen := by
    rcases h.1 with rfl | ⟨l, hl⟩
    · simpa [yieldL] using hr
    · rw [hl]; simp
  simp [indexPathLoop, hla]
  refine (nameRefR_runs _ _).use ?_
  intro _ i1 e1 h1
  refine h.2 f' rest hr (by simp; omega) _ _ _ _ ?_
  intro items ev'' f'' ht hlt
  have := hq (.tok .dot :: (i1 ++ items)) ev'' f'' (by simp [toTreeL, toTree, h1, ht]) hlt
  simpa using this

theorem c_plainName : Compl .funcName [.node .functionDefContent [nameT]] := by
  intro f rest hr hf
  refine runs_intro rfl ?_
  intro ev cur st
  ynorm
  have hr' : lookahead rest 0 = .lParen := hr
  simp [functionDefContent, hr']
  refine (nameR_runs _ _).use ?_
  intro _ i1 e1 h1
  simp
  exact RPost.mk [.node ev .functionDefContent [] i1] rfl (by simp [toTree, toTreeL, h1])

theorem path_la {ts rest} (h : Compl .pathTail ts) (hr : la rest ≠ .lParen) :
    lookahead (yieldL ts ++ rest) 0 ≠ .lParen := by
  rcases h.1 with rfl | ⟨l, hl⟩
  · simpa [yieldL] using hr
  · rw [hl]; simp

theorem c_methodName (ts) (h : Compl .pathTail ts) : Compl .funcName [.node .functionDefContent
    [.node .functionMethod [.node .indexPath (nameRefT :: ts), .tok .colon, nameT]]] := by
  intro f rest hr hf
  refine runs_intro rfl ?_
  intro ev cur st
  simp [yieldL, PTree.yield] at hf
  ynorm
  have hla := path_la (rest := .colon :: .ident :: rest) h (by simp)
  simp [functionDefContent, hla, indexPath]
  refine (nameRefR_runs _ _).use ?_
  intro _ i1 e1 h1
  refine h.2 f (.colon :: .ident :: rest) (by simp) (by simp; omega) _ _ _ _ ?_
  intro items ev'' f'' ht hlt
  obtain ⟨g, rfl⟩ : ∃ g, f'' = g + 1 := ⟨f'' - 1, by omega⟩
  simp [indexPathLoop]
  refine (nameR_runs _ _).use ?_
  intro _ i2 e2 h2
  simp
  exact RPost.mk [_] rfl (by simp [toTree, toTreeL, h1, h2, ht])

theorem c_staticName (ts) (h : Compl .pathTail ts) : Compl .funcName [.node .functionDefContent
    [.node .functionStatic [.node .indexPath (nameRefT :: (ts ++ [.tok .dot])), nameT]]] := by
  intro f rest hr hf
  refine runs_intro rfl ?_
  intro ev cur st
  simp [yieldL, PTree.yield] at hf
  ynorm
  have hr' : lookahead rest 0 = .lParen := hr
  have hla := path_la (rest := .dot :: .ident :: rest) h (by simp)
  simp [functionDefContent, hla, indexPath]
  refine (nameRefR_runs _ _).use ?_
  intro _ i1 e1 h1
  refine h.2 f (.dot :: .ident :: rest) (by simp) (by simp; omega) _ _ _ _ ?_
  intro items ev'' f'' ht hlt
  obtain ⟨g, rfl⟩ : ∃ g, f'' = g + 1 := ⟨f'' - 1, by omega⟩
  simp [indexPathLoop, hr']
  refine (nameR_runs _ _).use ?_
  intro _ i2 e2 h2
  simp
  exact RPost.mk [_] rfl (by simp [toTree, toTreeL, h1, h2, ht])

theorem c_staticNoDot (ts) (h : Compl .pathTail ts) : Compl .funcName [.node .functionDefContent
    [.node .functionStatic [.node .indexPath (nameRefT :: ts), nameT]]] := by
  intro f rest hr hf
  refine runs_intro rfl ?_
  intro ev cur st
  simp [yieldL, PTree.yield] at hf
  ynorm
  have hr' : lookahead rest 0 = .lParen := hr
  have hla := path_la (rest := .ident :: rest) h (by simp)
  simp [functionDefContent, hla, indexPath]
  refine (nameRefR_runs _ _).use ?_
  intro _ i1 e1 h1
  refine h.2 f (.ident :: rest) (by simp) (by simp; omega) _ _ _ _ ?_
  intro items ev'' f'' ht hlt
  obtain ⟨g, rfl⟩ : ∃ g, f'' = g + 1 := ⟨f'' - 1, by omega⟩
  simp [indexPathLoop, hr']
  refine (nameR_runs _ _).use ?_
  intro _ i2 e2 h2
  simp
  exact RPost.mk [_] rfl (by simp [toTree, toTreeL, h1, h2, ht])

end Verif
