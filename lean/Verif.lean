import Verif.Gauss
import Verif.Spec
import Verif.Model.Core
import Verif.Model.Bsm
import Verif.Lemmas.Black
import Verif.Lemmas.BlackDeriv
import Verif.Lemmas.BlackMore
import Verif.Props.Bsm
import Verif.Props.BsmVar
import Verif.Lemmas.Mills
import Verif.Model.Util
import Verif.Model.BsmImpvol
import Verif.Props.BsmImpvol
import Verif.Lemmas.Newton
import Verif.Props.BsmNewton
import Verif.Model.Barrier
import Verif.Lemmas.Barrier
import Verif.Lemmas.Bach
import Verif.Props.Barrier
import Verif.Model.BsmDisp
import Verif.Props.BsmDisp
import Verif.Model.Norm
import Verif.Lemmas.BachDeriv
import Verif.Props.Norm
import Verif.Model.OptAbc
import Verif.Lemmas.FinDiff
import Verif.Props.OptAbc
import Verif.Model.Dist
import Verif.Lemmas.Moments
import Verif.Lemmas.InvGauss
import Verif.Props.Dist
import Verif.Props.DistQuad
import Verif.Props.DistGh
import Verif.Props.Util
import Verif.Model.DistState
import Verif.Props.DistState
import Verif.Model.Levy
import Verif.Lemmas.Subord
import Verif.Lemmas.Mellin
import Verif.Props.Levy
import Verif.Props.Levy2
import Verif.Model.Params
import Verif.Props.Params
import Verif.Props.ParamsFrom
import Verif.Props.ParamsMa
import Verif.Lemmas.Lewis
import Verif.Model.Fft
import Verif.Props.Fft
import Verif.Props.FftCache
import Verif.Lemmas.CosSeries
import Verif.Model.Cos
import Verif.Props.Cos
import Verif.Props.CosLimit
import Verif.Props.CosModels
import Verif.Model.Quad
import Verif.Props.Quad
import Verif.Model.SvMc
import Verif.Props.SvMc
import Verif.Props.SvMcPrice
import Verif.Model.Alloc
import Verif.Props.Alloc
import Verif.Props.AllocSca
import Verif.Model.Ncx2
import Verif.Lemmas.Ncx2
import Verif.Model.Cev
import Verif.Lemmas.Cev
import Verif.Props.Cev
import Verif.Lemmas.PriceLaw
import Verif.Lemmas.Ncx2Lim
import Verif.Lemmas.Kang
import Verif.Props.CevLaw
import Verif.Props.CevMc
import Verif.Props.CevMass
import Verif.Model.InvDist
import Verif.Props.InvDist
import Verif.Model.Cir
import Verif.Model.Heston
import Verif.Lemmas.ExpPoly
import Verif.Lemmas.CirMoments
import Verif.Lemmas.HestonMoments
import Verif.Lemmas.CirExist
import Verif.Props.Cir
import Verif.Props.HestonMom
import Verif.Props.CirDraw
import Verif.Props.HestonMgf
import Verif.Model.Mgf2Mom
import Verif.Props.Mgf2Mom
import Verif.Model.Svi
import Verif.Props.Svi
import Verif.Model.SvFinDiff
import Verif.Props.SvFinDiff
import Verif.Props.SvFinDiffParity
import Verif.Lemmas.MvGauss
import Verif.Lemmas.MultiLogn
import Verif.Lemmas.OneFactor
import Verif.Lemmas.BmExp
import Verif.Lemmas.Brownian
import Verif.Model.MultiAsset
import Verif.Model.MaBasket
import Verif.Props.Spread
import Verif.Props.Max2
import Verif.Props.Basket
import Verif.Props.Basket2
import Verif.Props.Basket1Bm
import Verif.Props.Choi2018
import Verif.Props.Choi2018Cond
import Verif.Model.MaMc
import Verif.Props.MaMc
import Verif.Props.NdMc
import Verif.Model.Sabr
import Verif.Lemmas.RawMom
import Verif.Lemmas.MgfUniq
import Verif.Props.SabrMom
import Verif.Props.SabrCond
import Verif.Props.SabrVol
import Verif.Model.Nsvh
import Verif.Props.Nsvh
import Verif.Props.NsvhMom
import Verif.Props.NsvhFit
import Verif.Props.NsvhQuad
import Verif.Model.SabrInt
import Verif.Props.SabrInt
import Verif.Model.BasketNsvh
import Verif.Props.BasketNsvh
import Verif.Model.Asian
import Verif.Props.Asian
import Verif.Model.Amer
import Verif.Props.Amer
import Verif.Model.HestonMc
import Verif.Lemmas.CothSeries
import Verif.Lemmas.ExMv
import Verif.Props.HestonMc
import Verif.Props.HestonGe
import Verif.Props.HestonEta
import Verif.Props.HestonLaw
import Verif.Model.Ousv
import Verif.Lemmas.OuProcess
import Verif.Props.OusvMom
import Verif.Props.OusvKl
import Verif.Lemmas.CoshFourier
import Verif.Props.OusvKlPath
import Verif.Props.HestonMcStep
import Verif.Props.OusvKlStep
import Verif.Props.OusvSwap
import Verif.Props.OusvMgf
import Verif.Lemmas.QuadVar
import Verif.Props.OusvCond
import Verif.Model.Sv32
import Verif.Lemmas.Kummer
import Verif.Props.Sv32Mgf
import Verif.Lemmas.Follmer
import Verif.Props.Sv32Mc
import Verif.Lemmas.BesselNu
import Verif.Props.Sv32Bessel
import Verif.Lemmas.GarchProcess
import Verif.Lemmas.FollmerMore
import Verif.Model.Garch
import Verif.Props.Garch
import Verif.Props.GarchMc
import Verif.Props.SabrMc
import Verif.Props.SabrMcPrice
import Verif.Props.SabrCai
import Verif.Props.SabrCaiInv
import Verif.Lemmas.FracInt
import Verif.Model.HestonRough
import Verif.Props.RoughAdams
import Verif.Props.RoughHybrid
import Verif.Props.RoughMc
import Verif.Props.RoughNodes
import Verif.Props.RoughMulti
import Verif.Props.OusvTight
import Verif.Props.McFollow
import Verif.Props.GramCharlier
import Verif.Model.MassZero
import Verif.Props.MassZero
import Verif.Props.BasketJuMom
import Verif.Props.AsianJuMom
import Verif.Props.Choi2018Quad
import Verif.Props.SabrShort
import Verif.Props.SabrSmile
import Verif.Props.SabrOrder1
import Verif.Lemmas.Sawtooth
import Verif.Lemmas.CdfSeries
import Verif.Lemmas.GammaSeries
import Verif.Model.CdfInv
import Verif.Props.CdfInv
import Verif.Lemmas.GaussPolar
import Verif.Props.NsvhGq
import Verif.Model.SabrCalib
import Verif.Props.SabrCalib
import Verif.Model.CevMc
import Verif.Lemmas.CevChain
import Verif.Props.CevMcLoop
import Verif.Lemmas.BesselAsymp
import Verif.Props.Sv32Init
import Verif.Model.BsmDispSmile
import Verif.Props.BsmDispSmile
import Verif.Lemmas.LevyLaw
import Verif.Model.CgmyCos
import Verif.Props.CgmyLaw
import Verif.Props.SvFinDiffStep
import Verif.Model.DistScipy
import Verif.Props.DistScipy
import Verif.Model.Cum4
import Verif.Props.Cum4
import Verif.Model.PathAvg
import Verif.Props.PathAvg
import Verif.Model.SabrNormApprox
import Verif.Props.SabrNormApprox
import Verif.Model.Configure
import Verif.Props.Configure
import Verif.Lemmas.FracConv
import Verif.Props.RoughConv
import Verif.Props.AllocConv
import Verif.Props.AllocOrig
import Verif.Props.AsianSmall
import Verif.Props.AllocBudget
import Verif.Props.CosRate
import Verif.Props.SabrOrder1Taylor
import Verif.Model.HestonVolPath
import Verif.Props.HestonVolPath
import Verif.Props.HestonVolPathMom
import Verif.Props.HestonTrapz
import Verif.Props.HestonTdMean
import Verif.Props.HestonGeMean
import Verif.Props.HestonTwMean
import Verif.Props.HestonBayes
