import Verif.Strings.Model
import Verif.Strings.Spec
import Verif.Strings.Lemmas
import Verif.Strings.LemmasEdit
import Verif.Strings.LemmasMatch
import Verif.Strings.Props
import Verif.Expr.Model
import Verif.Expr.Spec
import Verif.Expr.Lemmas
import Verif.Expr.LemmasTerm
import Verif.Expr.LemmasMono
import Verif.Expr.Props
import Verif.Expr.Print
import Verif.Expr.Cxx
import Verif.Expr.LemmasPrint
import Verif.Expr.PropsPrint
import Verif.Resolve.Model
import Verif.Resolve.Spec
import Verif.Resolve.Lemmas
import Verif.Resolve.Props
import Verif.External.Model
import Verif.External.Spec
import Verif.External.Lemmas
import Verif.External.Props
import Verif.Store.Model
import Verif.Store.Spec
import Verif.Store.Lemmas
import Verif.Store.Props
import Verif.Store.Simd
import Verif.Store.LemmasSimd
import Verif.Store.PropsSimd
import Verif.Comb.Model
import Verif.Comb.Spec
import Verif.Comb.LemmasPerm
import Verif.Comb.LemmasComb
import Verif.Comb.LemmasCycle
import Verif.Comb.LemmasSym
import Verif.Comb.LemmasPar
import Verif.Comb.Props
import Verif.Kahan.Model
import Verif.Kahan.Spec
import Verif.Kahan.Lemmas
import Verif.Kahan.LemmasSum
import Verif.Kahan.Props
import Verif.Pool.Model
import Verif.Pool.Lemmas
import Verif.Pool.Props
import Verif.Coherent.Model
import Verif.Coherent.Spec
import Verif.Coherent.Lemmas
import Verif.Coherent.LemmasState
import Verif.Coherent.LemmasSum
import Verif.Coherent.Props
import Verif.Polarised.Model
import Verif.Polarised.Spec
import Verif.Polarised.LemmasState
import Verif.Polarised.LemmasSum
import Verif.Polarised.Props
import Verif.PhaseSpace.Model
import Verif.PhaseSpace.Spec
import Verif.PhaseSpace.Lemmas
import Verif.PhaseSpace.Props
import Verif.Discrete.Model
import Verif.Discrete.Lemmas
import Verif.Discrete.Props
import Verif.DecayChain.Model
import Verif.DecayChain.Spec
import Verif.DecayChain.LemmasA
import Verif.DecayChain.LemmasB
import Verif.DecayChain.LemmasC
import Verif.DecayChain.LemmasD
import Verif.DecayChain.Props
import Verif.Tensor.Model
import Verif.Tensor.Spec
import Verif.Tensor.LemmasA
import Verif.Tensor.LemmasB
import Verif.Tensor.LemmasC
import Verif.Tensor.LemmasD
import Verif.Tensor.LemmasE
import Verif.Tensor.LemmasF
import Verif.Tensor.Props
import Verif.Binning.Model
import Verif.Binning.Spec
import Verif.Binning.LemmasA
import Verif.Binning.LemmasB
import Verif.Binning.LemmasC
import Verif.Binning.Props
import Verif.Binning.CutModel
import Verif.Binning.CutSpec
import Verif.Binning.CutProps
import Verif.Binning.FileModel
import Verif.Binning.FileProps
import Verif.Options.Model
import Verif.Options.Spec
import Verif.Options.Lemmas
import Verif.Options.Props
import Verif.Options.NumberedModel
import Verif.Options.NumberedProps
import Verif.Params.Model
import Verif.Params.Spec
import Verif.Params.Lemmas
import Verif.Params.Props
import Verif.Params.ResetModel
import Verif.Params.ResetProps
import Verif.Fit.Model
import Verif.Fit.Props
import Verif.Fit.PropsScan
import Verif.Fit.PropsBlind
import Verif.Enum.Model
import Verif.Enum.Spec
import Verif.Enum.Lemmas
import Verif.Enum.Props
import Verif.Errors.Model
import Verif.Errors.Spec
import Verif.Errors.Lemmas
import Verif.Errors.Props
import Verif.FitFile.Model
import Verif.FitFile.Spec
import Verif.FitFile.Lemmas
import Verif.FitFile.Props
import Verif.FitFile.LemmasOptions
import Verif.FitFile.PropsOptions
import Verif.FitFile.UpdateModel
import Verif.FitFile.UpdateSpec
import Verif.FitFile.UpdateProps
import Verif.Spin.Model
import Verif.Spin.Spec
import Verif.Spin.Lemmas
import Verif.Spin.Props
import Verif.Container.Model
import Verif.Container.Spec
import Verif.Container.Lemmas
import Verif.Container.Props
import Verif.Pade.Model
import Verif.Pade.Spec
import Verif.Pade.Lemmas
import Verif.Pade.Props
import Verif.Spline.Model
import Verif.Spline.Spec
import Verif.Spline.Lemmas
import Verif.Spline.Lemmas2
import Verif.Spline.Props
import Verif.Kinematics.Model
import Verif.Kinematics.Spec
import Verif.Kinematics.Lemmas
import Verif.Kinematics.Lemmas2
import Verif.Kinematics.Props
import Verif.Transform.Model
import Verif.Transform.Spec
import Verif.Transform.Lemmas
import Verif.Transform.Lemmas2
import Verif.Transform.Props
import Verif.Generator.Model
import Verif.Generator.Spec
import Verif.Generator.Lemmas
import Verif.Generator.Props
import Verif.PDG.Model
import Verif.PDG.Spec
import Verif.PDG.Lemmas
import Verif.PDG.LemmasDB
import Verif.PDG.Props
import Verif.EventType.Model
import Verif.EventType.Spec
import Verif.EventType.LemmasFormat
import Verif.EventType.LemmasSym
import Verif.EventType.PropsFormat
import Verif.EventType.PropsConj
import Verif.EventType.PropsRange
import Verif.EventType.ProjectionsModel
import Verif.EventType.ProjectionsProps
import Verif.EventType.PropsSym
import Verif.EventType.PropsOrder
import Verif.EventType.PropsLoad
import Verif.Particle.Model
import Verif.Particle.Spec
import Verif.Particle.LemmasItems
import Verif.Particle.LemmasParse
import Verif.Particle.LemmasPrint
import Verif.Particle.LemmasTree
import Verif.Particle.LemmasRound
import Verif.Particle.LemmasConj
import Verif.Particle.LemmasConjTree
import Verif.Particle.Samples
import Verif.Particle.Props
import Verif.Particle.PropsLabels
import Verif.Particle.PropsConj
import Verif.Particle.PropsOrder
import Verif.Particle.AttributeModel
import Verif.Particle.AttributeProps
import Verif.Parser.Model
import Verif.Parser.Spec
import Verif.Parser.Lemmas
import Verif.Parser.LemmasTokens
import Verif.Parser.Props
import Verif.Parser.WordModel
import Verif.Parser.WordProps
import Verif.Parser.PropsErrors
import Verif.Simplify.Model
import Verif.Simplify.Spec
import Verif.Simplify.Lemmas
import Verif.Simplify.LemmasTerms
import Verif.Simplify.Props
import Verif.Rules.Model
import Verif.Rules.Spec
import Verif.Rules.LemmasText
import Verif.Rules.LemmasCascade
import Verif.Rules.LemmasPut
import Verif.Rules.LemmasStep
import Verif.Rules.LemmasExpand
import Verif.Rules.Samples
import Verif.Rules.Props
import Verif.Lineshapes.Model
import Verif.Lineshapes.Spec
import Verif.Lineshapes.Lemmas
import Verif.Lineshapes.Props
import Verif.Lineshapes.PropsAmp
import Verif.KMatrix.Model
import Verif.KMatrix.Spec
import Verif.KMatrix.Lemmas
import Verif.KMatrix.LemmasLU
import Verif.KMatrix.LemmasInv
import Verif.KMatrix.Props
import Verif.KMatrix.PropsUnitary
import Verif.KMatrix.PropsProd
import Verif.KMatrix.SimpleModel
import Verif.KMatrix.SimpleSpec
import Verif.KMatrix.SimpleProps
import Verif.KMatrix.GenericModel
import Verif.KMatrix.GenericProps
import Verif.Vertex.Model
import Verif.Vertex.Spec
import Verif.Vertex.Lemmas
import Verif.Vertex.LemmasCross
import Verif.Vertex.LemmasDirac
import Verif.Vertex.Props
import Verif.Vertex.PropsVertex
import Verif.Vertex.PropsCov
import Verif.Vertex.PropsFermion
import Verif.Vertex.PropsFermionCov
import Verif.Vertex.PropsLinear
import Verif.Cubature.Model
import Verif.Cubature.Spec
import Verif.Cubature.LemmasHeap
import Verif.Cubature.LemmasLoop
import Verif.Cubature.LemmasRule
import Verif.Cubature.LemmasMono
import Verif.Cubature.LemmasExact
import Verif.Cubature.LemmasPoly
import Verif.Cubature.LemmasLiteral
import Verif.Cubature.LemmasBox
import Verif.Cubature.LemmasSame
import Verif.Cubature.Props
import Verif.Likelihood.Model
import Verif.Likelihood.Spec
import Verif.Likelihood.Lemmas
import Verif.Likelihood.PropsInco
import Verif.Likelihood.LemmasSum
import Verif.Likelihood.Props
import Verif.Wigner.Model
import Verif.Wigner.Lemmas
import Verif.Wigner.Lemmas2
import Verif.Wigner.Props
import Verif.Spin.Ortho
import Verif.Spin.Ortho2
import Verif.Spin.Ortho3
import Verif.Spin.PropsOrtho
import Verif.Spin.PropsCouplings
import Verif.Recursive.Model
import Verif.Recursive.Spec
import Verif.Recursive.Lemmas
import Verif.Recursive.Props
import Verif.Dalitz.Model
import Verif.Dalitz.Spec
import Verif.Dalitz.Lemmas
import Verif.Dalitz.Props
import Verif.Dalitz.LemmasIntegral
import Verif.Dalitz.PropsIntegral
import Verif.Dalitz.Widths
import Verif.Dalitz.PropsWidths
import Verif.Shapes.Model
import Verif.Shapes.Spec
import Verif.Shapes.Lemmas
import Verif.Shapes.Props
import Verif.Shapes.PropsMass
import Verif.Shapes.PropsGlass
import Verif.Shapes.PropsPhsp
import Verif.Shapes.PropsDecay
import Verif.DecayChain.PropsMixture
import Verif.Polarisation.Model
import Verif.Polarisation.Spec
import Verif.Polarisation.Lemmas
import Verif.Polarisation.LemmasVector
import Verif.Polarisation.LemmasSpinor
import Verif.Polarisation.Props
import Verif.Helicity.Model
import Verif.Helicity.Spec
import Verif.Helicity.LemmasCache
import Verif.Helicity.LemmasKeys
import Verif.Helicity.LemmasFrame
import Verif.Helicity.LemmasWick
import Verif.Helicity.LemmasBoost
import Verif.Helicity.LemmasAlign
import Verif.Helicity.LemmasLeaf
import Verif.Helicity.LemmasTurn
import Verif.Helicity.LemmasGram
import Verif.Helicity.LemmasInvariant
import Verif.Helicity.LemmasHead
import Verif.Helicity.Props
import Verif.Helicity.PropsCache
import Verif.Simd.Model
import Verif.Simd.Spec
import Verif.Simd.Lemmas
import Verif.Simd.LemmasE
import Verif.Simd.LemmasI
import Verif.Simd.Avx512
import Verif.Simd.LemmasL
import Verif.Simd.Props
import Verif.Plots.Model
import Verif.Plots.Spec
import Verif.Plots.Lemmas
import Verif.Plots.Props
import Verif.CP.Model
import Verif.CP.Spec
import Verif.CP.Lemmas
import Verif.CP.Props
import Verif.CP.PropsMatch
import Verif.Export.Model
import Verif.Export.Spec
import Verif.Export.Lemmas
import Verif.Export.Props
import Verif.Export.LemmasCache
import Verif.Export.PropsCache
import Verif.Assembly.Model
import Verif.Assembly.Spec
import Verif.Assembly.Lemmas
import Verif.Assembly.Props
import Verif.Expr.Derivative
import Verif.Expr.PropsDerivative
import Verif.SplineShapes.Model
import Verif.SplineShapes.Props
import Verif.FitErrors.Model
import Verif.FitErrors.Props
import Verif.Amplitude.Spec
import Verif.Amplitude.Model
import Verif.Amplitude.Lemmas
import Verif.Amplitude.Props
import Verif.Angles.Model
import Verif.Angles.Spec
import Verif.Angles.Lemmas
import Verif.Angles.Props
import Verif.EventLists.Model
import Verif.EventLists.Spec
import Verif.EventLists.Props
import Verif.SpinAverage.Model
import Verif.SpinAverage.Spec
import Verif.SpinAverage.Lemmas
import Verif.SpinAverage.Props
import Verif.Paths.Model
import Verif.Paths.Spec
import Verif.Paths.Lemmas
import Verif.Paths.Props
import Verif.Cascade.Model
import Verif.Cascade.Spec
import Verif.Cascade.Lemmas
import Verif.Cascade.LemmasFrame
import Verif.Cascade.Props
import Verif.Cascade.FermionModel
import Verif.Cascade.FermionSpec
import Verif.Cascade.FermionLemmas
import Verif.Cascade.FermionProps
import Verif.Cast.Model
import Verif.Cast.Spec
import Verif.Cast.Props
import Verif.Symbols.Model
import Verif.Symbols.Spec
import Verif.Symbols.Lemmas
import Verif.Symbols.Props
import Verif.Sharing.Model
import Verif.Sharing.Spec
import Verif.Sharing.Props
import Verif.Sampler.Model
import Verif.Sampler.Spec
import Verif.Sampler.Props
import Verif.PolStates.Model
import Verif.PolStates.Props
