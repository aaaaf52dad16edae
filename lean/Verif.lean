import Verif.Sort.Theorems
import Verif.Sort.CriteriaTheorems
import Verif.VecPool.Theorems
import Verif.ST.BackTheorems
import Verif.ST.StateTheorems
import Verif.ST.PolyTheorems
import Verif.ST.InplaceTheorems
import Verif.ST.TransposeTheorems
import Verif.RG.MemberTheorems
import Verif.RG.PolyTheorems
import Verif.RG.ScaleTheorems
import Verif.RG.ContourTheorems
import Verif.FN.Theorems
import Verif.FN.HeapTheorems
import Verif.FN.MatTheorems
import Verif.Contour.Theorems
import Verif.Contour.QuadTheorems
import Verif.MatTile.Theorems
import Verif.VecComp.Theorems
import Verif.DS.SortTheorems
import Verif.DS.DimsTheorems
import Verif.DS.SchurTheorems
import Verif.BV.StateTheorems
import Verif.BV.SignTheorems
import Verif.BV.SplitTheorems
import Verif.BV.OrthoTheorems
import Verif.EPS.DimsTheorems
import Verif.EPS.StoppingTheorems
import Verif.EPS.DiscardTheorems
import Verif.EPS.StructTheorems
import Verif.EPS.StructVecTheorems
import Verif.EPS.ResidualTheorems
import Verif.EPS.ConvTheorems
import Verif.EPS.LeftPairs
import Verif.EPS.LeftPairsThm
import Verif.PEP.BasisTheorems
import Verif.PEP.LinearTheorems
import Verif.PEP.OperatorTheorems
import Verif.PEP.ToarTheorems
import Verif.PEP.ResidualTheorems
import Verif.SVD.OrderTheorems
import Verif.EPS.SpacesTheorems
import Verif.EPS.SpacesUseTheorems
import Verif.SVD.ErrorTheorems
import Verif.SVD.ScaleTheorems
import Verif.SVD.CrossTheorems
import Verif.SVD.CyclicTheorems
import Verif.SVD.CyclicListTheorems
import Verif.SVD.ReuseTheorems
import Verif.EPS.TestSelTheorems
import Verif.BV.KrylovTheorems
import Verif.MFN.KrylovTheorems
import Verif.MFN.ExpokitTheorems
import Verif.MFN.StateTheorems
import Verif.LME.DenseTheorems
import Verif.LME.KrylovTheorems
import Verif.LME.WitnessRestart
import Verif.LME.WitnessRank
import Verif.LME.WitnessBlocks
import Verif.LME.SolveTheorems
import Verif.EPS.KrylovSchurModel
import Verif.EPS.KrylovSchurLemmas
import Verif.EPS.KrylovSchurSpec
import Verif.EPS.KrylovSchurStep
import Verif.EPS.KrylovSchurCycle
import Verif.EPS.KrylovSchurRun
import Verif.EPS.KrylovSchurTheorems
import Verif.EPS.KrylovSchurSmall
import Verif.EPS.KrylovSchurWitness
import Verif.EPS.KrylovSchurSpike
import Verif.NEP.NleigsTheorems
import Verif.NEP.LejaTheorems
import Verif.NEP.FullBasisTheorems
import Verif.NEP.FullBasisLeftTheorems
import Verif.NEP.SingTheorems
import Verif.NEP.InterpolModel
import Verif.NEP.InterpolTheorems
import Verif.NEP.ApplyModel
import Verif.NEP.ApplyTheorems
import Verif.NEP.ResolvModel
import Verif.NEP.ResolvTheorems
import Verif.Slice.Model
import Verif.Slice.Count
import Verif.Slice.Inv
import Verif.Slice.Found
import Verif.Slice.Insert
import Verif.Slice.Step
import Verif.Slice.Run
import Verif.Slice.Theorems
import Verif.Slice.Parts
import Verif.Slice.Report
import Verif.Slice.Gather
import Verif.Slice.PartsThm
import Verif.Slice.Witness
import Verif.Slice.Moves
import Verif.Slice.Detect
import Verif.BVB.Base
import Verif.BVB.Dot
import Verif.BVB.DotThm
import Verif.BVB.Project
import Verif.BVB.ProjectThm
import Verif.BVB.InPlace
import Verif.BVB.Givens
import Verif.BVB.GivensThm
import Verif.BVB.Tsqr
import Verif.BVB.TsqrThm
import Verif.BVB.Block
import Verif.BVB.BlockLem
import Verif.BVB.BlockThm
import Verif.BVB.BlockThm2
import Verif.BVB.BlockThm3
import Verif.BVB.BlockWit
import Verif.BVB.Biorth
import Verif.BVB.BiorthThm
import Verif.BVB.Insert
import Verif.BVB.InsertThm
import Verif.BVB.Random
import Verif.BVB.Norm
import Verif.BVB.NormThm
import Verif.BVB.Cond
import Verif.GKL.Model
import Verif.GKL.Lem
import Verif.GKL.Loop
import Verif.GKL.Two
import Verif.GKL.TwoThm
import Verif.GKL.SolveModel
import Verif.GKL.SolveLem
import Verif.GKL.Frame
import Verif.GKL.TrThm
import Verif.GKL.LThm
import Verif.GKL.OneModel
import Verif.GKL.OneLem
import Verif.GKL.OneStep
import Verif.GKL.OneThm
import Verif.GKL.Svd
import Verif.GKL.Witness
import Verif.Filt.ChebLem
import Verif.Filt.ChebModel
import Verif.Filt.ChebSpec
import Verif.Filt.ChebThm
import Verif.Filt.ChebWit
import Verif.Filt.Cr
import Verif.Filt.CrArr
import Verif.Filt.DampLem
import Verif.Filt.FiltThm
import Verif.Filt.HermLem
import Verif.Filt.HermThm
import Verif.Filt.IntvInv
import Verif.Filt.IntvLem
import Verif.Filt.IntvModel
import Verif.Filt.IntvSpec
import Verif.Filt.IntvThm
import Verif.Filt.IntvWit
import Verif.Filt.Kern
import Verif.Filt.Lem
import Verif.Filt.Model
import Verif.Filt.NewtonLem
import Verif.Filt.SetupModel
import Verif.Filt.SetupThm
import Verif.Filt.SetupWit
import Verif.Filt.Spec
import Verif.Filt.VecLem
import Verif.NDef.CacheModel
import Verif.NDef.CacheThm
import Verif.NDef.DeflThm
import Verif.NDef.DerivLem
import Verif.NDef.DerivThm
import Verif.NDef.ExtrThm
import Verif.NDef.Lem
import Verif.NDef.LockInv
import Verif.NDef.LockLem
import Verif.NDef.LockThm
import Verif.NDef.MatFun
import Verif.NDef.Model
import Verif.NDef.NEModel
import Verif.NDef.NEThm
import Verif.NDef.ProjThm
import Verif.NDef.SolveThm
import Verif.NDef.Spec
import Verif.NDef.StopModel
import Verif.NDef.StopThm
import Verif.NDef.Wit
import Verif.Iter.GroupModel
import Verif.Iter.GroupThm
import Verif.Iter.PowerModel
import Verif.Iter.PowerThm
import Verif.Iter.PowerWit
import Verif.Iter.RqiModel
import Verif.Iter.RqiThm
import Verif.Iter.RqiWit
import Verif.Iter.RsvdModel
import Verif.Iter.RsvdThm
import Verif.Iter.SubspaceModel
import Verif.Iter.SubspaceThm
import Verif.Iter.Two
import Verif.Iter.TwoSidedModel
import Verif.Iter.TwoSidedThm
import Verif.Lan.SortModel
import Verif.Lan.SortThm
import Verif.Lan.LocalModel
import Verif.Lan.LocalThm
import Verif.Lan.OmegaModel
import Verif.Lan.OmegaThm
import Verif.Lan.DelayModel
import Verif.Lan.DelayThm
import Verif.Lan.DelayWit
import Verif.Lan.BetaModel
import Verif.Lan.BetaThm
import Verif.Cg.LineModel
import Verif.Cg.LineThm
import Verif.Cg.ResetModel
import Verif.Cg.ResetThm
import Verif.Cg.IterModel
import Verif.Cg.IterThm
import Verif.Cg.IterWit
import Verif.Cg.LobModel
import Verif.Cg.LobThm
import Verif.Cg.CountModel
import Verif.Cg.CountThm
import Verif.Ts.Model
import Verif.Ts.Arn
import Verif.Ts.Thm
import Verif.Ts.RitzModel
import Verif.Ts.RitzThm
import Verif.Ts.Wit
import Verif.Ts.SortModel
import Verif.Ts.SortThm
import Verif.Bse.Model
import Verif.Bse.Alg
import Verif.Bse.Shao
import Verif.Bse.ShaoLoop
import Verif.Bse.RunModel
import Verif.Bse.Spec
import Verif.Bse.Thm
import Verif.Bse.Wit
import Verif.Bse.Sinv
import Verif.Bse.GrModel
import Verif.Bse.Gr
import Verif.Bse.GrThm
import Verif.Bse.GrWit
import Verif.Lrep.Model
import Verif.Lrep.Teng
import Verif.Lrep.Zhong
import Verif.Lrep.Spec
import Verif.Lrep.Thm
import Verif.Lrep.Wit
import Verif.Harm.Model
import Verif.Harm.Spec
import Verif.Harm.Lemmas
import Verif.Harm.Thm
import Verif.Harm.Thm2
import Verif.Harm.Wit
import Verif.Pscl.Model
import Verif.Pscl.Spec
import Verif.Pscl.Lemmas
import Verif.Pscl.Thm
import Verif.Pscl.Thm2
import Verif.Pscl.Wit
import Verif.Ebal.Model
import Verif.Ebal.Spec
import Verif.Ebal.Lemmas
import Verif.Ebal.Thm
import Verif.Ebal.Wit
import Verif.Ebal.Ritz
import Verif.Ebal.RitzSpec
import Verif.Ebal.RitzThm
import Verif.Ebal.Left
import Verif.Text.Model
import Verif.Text.Thm
import Verif.Text.Value
import Verif.Text.Pair
